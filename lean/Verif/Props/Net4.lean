import Verif.Props.AnyNet2

/-! # Properties C53 and C72 of networks -/

set_option linter.unusedSectionVars false
set_option linter.unusedVariables false

namespace Verif.NetSpec

variable {T R : Type*} [LinearOrder T] [OrderTop T] [Zero T] [LinearOrder R] [Add R]

/-! ## C53: copies -/

theorem Same.refl (n : Net T R) : Same n n := ⟨rfl, rfl, rfl, rfl, rfl, rfl, rfl, rfl⟩

theorem Same.symm {n n' : Net T R} (h : Same n n') : Same n' n :=
  ⟨h.qs.symm, h.num.symm, h.t.symm, h.init.symm, h.bas.symm, h.probs.symm, h.unif.symm, h.jit.symm⟩

theorem Same.trans {n n' n'' : Net T R} (h : Same n n') (g : Same n' n'') : Same n n'' :=
  ⟨g.qs.trans h.qs, g.num.trans h.num, g.t.trans h.t, g.init.trans h.init, g.bas.trans h.bas,
    g.probs.trans h.probs, g.unif.trans h.unif, g.jit.trans h.jit⟩

/-- No two queues have their next event at the same time. -/
def NoTies (N : NetCfg T R) (n : Net T R) : Prop :=
  ∀ i < N.nE, ∀ j < N.nE, (n.qs i).time = (n.qs j).time → (n.qs i).time < ⊤ → i = j

theorem destination_same {N : NetCfg T R} {n c : Net T R} (h : Same n c) (k : Nat) (a : Agent T) :
    c.destination N k a = n.destination N k a := by
  unfold Net.destination
  rw [h.qs, h.probs, h.unif]

theorem maxed_same {N : NetCfg T R} {n c : Net T R} (h : c.numAgents = n.numAgents) :
    c.maxed N = n.maxed N := by
  unfold Net.maxed Net.total; rw [h]

/-- The effect of an event does not depend on the schedule. -/
theorem step_det {N : NetCfg T R} {n c n' c' : Net T R} (hs : Same n c) (ht : NoTies N n)
    (h1 : StepOutA N n n') (h2 : StepOutA N c c') (q1 : n'.qs ≠ n.qs) (q2 : c'.qs ≠ c.qs) : Same n' c' := by
  have huniq : ∀ k k', k < N.nE → k' < N.nE → (n.qs k).time < ⊤ →
      (∀ j < N.nE, (n.qs k).time ≤ (n.qs j).time) → (∀ j < N.nE, (n.qs k').time ≤ (n.qs j).time) → k' = k := by
    intro k k' hk hk' hlt g1 g2
    exact (ht k hk k' hk' (le_antisymm (g1 k' hk') (g2 k hk)) hlt).symm
  cases h1 with
  | empty _ e => rw [e] at q1; exact absurd rfl q1
  | idle _ _ _ _ _ _ _ _ _ e => rw [e] at q1; exact absurd rfl q1
  | arrive k s' a1 a2 a3 a4 a5 a6 a7 a8 a9 a10 a11 a12 a13 =>
    cases h2 with
    | empty _ e => rw [e] at q2; exact absurd rfl q2
    | idle _ _ _ _ _ _ _ _ _ e => rw [e] at q2; exact absurd rfl q2
    | arrive k' s'' b1 b2 b3 b4 b5 b6 b7 b8 b9 b10 b11 b12 b13 =>
      rw [hs.qs] at b4 b5 b6 b7 b8 b10
      rw [maxed_same hs.num] at b7
      obtain rfl := huniq k k' a1 b1 a4 a5 b5
      have : s'' = s' := by
        have := b7.ev; rw [a7.ev] at this; simpa using this.symm
      subst this
      exact ⟨by rw [b8, a8], by rw [b9, a9, hs.num], by rw [b10, a10], by rw [b13.init, a13.init, hs.init],
        by rw [b13.bas, a13.bas, hs.bas], by rw [b13.probs, a13.probs, hs.probs], by rw [b11, a11, hs.unif],
        by rw [b12, a12, hs.jit]⟩
    | block k' e' a' s1' d' b1 b2 b3 b4 b5 b6 b7 b8 =>
      rw [hs.qs] at b7 b8
      obtain rfl := huniq k k' a1 b1 a4 a5 b7
      rw [a6] at b8; exact absurd b8 (by decide)
    | move k' e' a' ao' s1' s2' d' b1 b2 b3 b4 b5 b6 b7 =>
      rw [hs.qs] at b6 b7
      obtain rfl := huniq k k' a1 b1 a4 a5 b6
      rw [a6] at b7; exact absurd b7 (by decide)
  | block k e a s1 d a1 a2 a3 a4 a5 a6 a7 a8 a9 a10 a11 a12 a13 a14 a15 a16 a17 a18 =>
    cases h2 with
    | empty _ e => rw [e] at q2; exact absurd rfl q2
    | idle _ _ _ _ _ _ _ _ _ e => rw [e] at q2; exact absurd rfl q2
    | arrive k' s'' b1 b2 b3 b4 b5 b6 =>
      rw [hs.qs] at b5 b6
      obtain rfl := huniq k k' a1 b1 a6 a7 b5
      rw [a8] at b6; exact absurd b6 (by decide)
    | block k' e' a' s1' d' b1 b2 b3 b4 b5 b6 b7 b8 b9 b10 b11 b12 b13 b14 b15 b16 b17 b18 =>
      rw [hs.qs] at b6 b7 b8 b12 b13 b15
      rw [destination_same hs] at b9
      obtain rfl := huniq k k' a1 b1 a6 a7 b7
      have haa : a' = a := by have := b12.head; rw [a12.head] at this; simpa using this.symm
      subst haa
      rw [a9] at b9
      simp only [Except.ok.injEq, Prod.mk.injEq] at b9
      obtain ⟨rfl, rfl⟩ := b9
      have : s1' = s1 := by
        have := b12.ev
        rw [hs.bas, hs.jit, a12.ev] at this; simpa using this.symm
      subst this
      exact ⟨by rw [b13, a13], by rw [b14, a14, hs.num], by rw [b15, a15], by rw [b18.init, a18.init, hs.init],
        by rw [b18.bas, a18.bas, hs.bas], by rw [b18.probs, a18.probs, hs.probs], by rw [b16, a16, hs.unif],
        by rw [b17, a17, hs.jit, hs.bas]⟩
    | move k' e' a' ao' s1' s2' d' b1 b2 b3 b4 b5 b6 b7 b8 b9 b10 =>
      rw [hs.qs] at b6 b7 b9 b10
      rw [destination_same hs] at b8
      obtain rfl := huniq k k' a1 b1 a6 a7 b6
      have haa : a' = a := by have := b10.head; rw [a12.head] at this; simpa using this.symm
      subst haa
      rw [a9] at b8
      simp only [Except.ok.injEq, Prod.mk.injEq] at b8
      obtain ⟨rfl, rfl⟩ := b8
      exact absurd (b9 a11).symm a4
  | move k e a ao s1 s2 d a1 a2 a3 a4 a5 a6 a7 a8 a9 a10 a11 a12 a13 a14 a15 a16 a17 =>
    cases h2 with
    | empty _ e => rw [e] at q2; exact absurd rfl q2
    | idle _ _ _ _ _ _ _ _ _ e => rw [e] at q2; exact absurd rfl q2
    | arrive k' s'' b1 b2 b3 b4 b5 b6 =>
      rw [hs.qs] at b5 b6
      obtain rfl := huniq k k' a1 b1 a5 a6 b5
      rw [a7] at b6; exact absurd b6 (by decide)
    | block k' e' a' s1' d' b1 b2 b3 b4 b5 b6 b7 b8 b9 b10 b11 b12 b13 b14 b15 b16 b17 b18 =>
      rw [hs.qs] at b7 b8 b11 b12
      rw [destination_same hs] at b9
      obtain rfl := huniq k k' a1 b1 a5 a6 b7
      have haa : a' = a := by have := b12.head; rw [a10.head] at this; simpa using this.symm
      subst haa
      rw [a8] at b9
      simp only [Except.ok.injEq, Prod.mk.injEq] at b9
      obtain ⟨rfl, rfl⟩ := b9
      exact absurd (a9 b11).symm b4
    | move k' e' a' ao' s1' s2' d' b1 b2 b3 b4 b5 b6 b7 b8 b9 b10 b11 b12 b13 b14 b15 b16 b17 =>
      rw [hs.qs] at b6 b7 b9 b10 b11 b12 b14
      rw [destination_same hs] at b8
      obtain rfl := huniq k k' a1 b1 a5 a6 b6
      have haa : a' = a := by have := b10.head; rw [a10.head] at this; simpa using this.symm
      subst haa
      have haa : ao' = ao ∧ s1' = s1 := by
        have := b10.ev; rw [a10.ev] at this
        simp only [Except.ok.injEq, Prod.mk.injEq, Option.some.injEq] at this
        exact ⟨this.2.symm, this.1.symm⟩
      obtain ⟨rfl, rfl⟩ := haa
      rw [a8] at b8
      simp only [Except.ok.injEq, Prod.mk.injEq] at b8
      obtain ⟨rfl, rfl⟩ := b8
      have hstop : stopAt N c k' e s1'.numTotal = stopAt N n k' e s1'.numTotal := by
        funext m
        unfold stopAt
        rw [maxed_same (N := N) (n := { n with
          numAgents := Function.update (Function.update n.numAgents k' s1'.numTotal) e m.numTotal })]
        simp [hs.num]
      rw [hstop] at b11
      have : s2' = s2 := by
        cases a11 with
        | queue g1 g2 =>
          cases b11 with
          | null m g3 => exact absurd g3 g1
          | queue g3 g4 =>
            obtain ⟨m, c1, -, -, -, -, -, -, -, -, -, -, -, c2⟩ := g2.mid
            obtain ⟨m', c1', -, -, -, -, -, -, -, -, -, -, -, c2'⟩ := g4.mid
            rw [c1] at c1'
            simp only [Except.ok.injEq] at c1'
            subst c1'
            have := c2'.ev; rw [c2.ev] at this; simpa using this.symm
        | null m g1 g2 g3 g4 g5 =>
          cases b11 with
          | queue g6 => exact absurd g1 g6
          | null m' g6 g7 g8 g9 g10 =>
            rw [g2] at g7
            simp only [Except.ok.injEq] at g7
            subst g7
            rw [g5, g10]
      subst this
      exact ⟨by rw [b12, a12], by rw [b13, a13, hs.num], by rw [b14, a14], by rw [b17.init, a17.init, hs.init],
        by rw [b17.bas, a17.bas, hs.bas], by rw [b17.probs, a17.probs, hs.probs], by rw [b15, a15, hs.unif],
        by rw [b16, a16, hs.jit]⟩

theorem steps_append {N : NetCfg T R} (i j : Nat) : ∀ {n n1 n2 : Net T R}, n.steps N i = .ok n1 →
    n1.steps N j = .ok n2 → n.steps N (i + j) = .ok n2 := by
  induction i with
  | zero => intro n n1 n2 h1 h2; simp only [Net.steps, Except.ok.injEq] at h1; subst h1; simpa using h2
  | succ i ih =>
    intro n n1 n2 h1 h2
    rw [Nat.succ_add]
    simp only [Net.steps] at h1 ⊢
    split at h1
    · simp at h1
    · exact ih h1 h2

theorem simulate_ok_init {N : NetCfg T R} {n n' : Net T R} {m : Nat} (h : n.simulate N m = .ok n') :
    n.initialized = true ∧ n.steps N m = .ok n' := by
  unfold Net.simulate at h
  split at h
  · rename_i hi; exact ⟨hi, h⟩
  · simp at h

/-- An idle step changes nothing. -/
theorem quiet_step {N : NetCfg T R} (hN : N.OkA) (hF : N.NoLoopA ∨ N.Ok ∧ N.NoInf) {b : Nat → Bool} {n n' : Net T R}
    (h : NetReach N b n) (hs : StepOutA N n n') (hne : n.heap.size ≠ 0) (hq : n'.qs = n.qs) :
    (Same n n' ∧ n'.heap.size < n.heap.size) ∨ ∃ k < N.nE, (n.qs k).time < ⊤ := by
  cases hs with
  | empty h0 _ => exact absurd h0 hne
  | idle k x hp h1 h2 h3 h4 h5 h6 h7 =>
    left
    have hx : x = n.t := by
      rcases h4 with h4 | h4
      · exact h4
      · have hx : x < ⊤ := by
          rcases hF with hF | ⟨hO, hF⟩
          · obtain ⟨h', res, g1, -, g2⟩ := poppedA (h.invA hN) hne
            rw [h6] at g1
            simp only [Option.some.injEq, Prod.mk.injEq] at g1
            exact (g2 x k g1.2.symm).fin hF
          · obtain ⟨h', res, g1, -, g2⟩ := popped (h.inv hO) hne
            rw [h6] at g1
            simp only [Option.some.injEq, Prod.mk.injEq] at g1
            exact (g2 x k g1.2.symm).fin hF
        rw [h4] at hx; exact absurd hx (lt_irrefl _)
    subst hx
    rw [h7]
    exact ⟨⟨rfl, rfl, rfl, rfl, rfl, rfl, rfl, rfl⟩, pop_shrinksA (h.invA hN) hne h6⟩
  | arrive k s' h1 h2 h3 h4 => exact .inr ⟨k, h1, h4⟩
  | block k e a s1 d h1 h2 h3 h4 h5 h6 => exact .inr ⟨k, h1, h6⟩
  | move k e a ao s1 s2 d h1 h2 h3 h4 h5 => exact .inr ⟨k, h1, h5⟩

/-- With no event ahead the schedule runs empty. -/
theorem drain {N : NetCfg T R} (hN : N.OkA) (hF : N.NoLoopA ∨ N.Ok ∧ N.NoInf) {b : Nat → Bool} : ∀ {c : Net T R},
    NetReach N b c → c.initialized = true → (∀ k < N.nE, (c.qs k).time = ⊤) →
    ∃ j c1, c.steps N j = .ok c1 ∧ Same c c1 ∧ NetReach N b c1 ∧ c1.heap.size = 0 := by
  intro c
  induction hsz : c.heap.size using Nat.strong_induction_on generalizing c with
  | _ sz ih =>
    intro h hi ht
    subst hsz
    by_cases h0 : c.heap.size = 0
    · exact ⟨0, c, rfl, Same.refl c, h, h0⟩
    · obtain ⟨c', hr, hreach, hi'⟩ := step_ok hN hF h hi
      obtain ⟨-, hs⟩ := step_of_simulateA hN h hr
      have hq : c'.qs = c.qs := by
        rcases C98_events_in_time_order hN h hr with hq | ⟨k, hk, a, g1, g2, g3, g4⟩
        · exact hq
        · cases hs with
          | empty _ e => rw [e]
          | idle _ _ _ _ _ _ _ _ _ e => rw [e]
          | arrive k s' h1 h2 h3 h4 => rw [ht k h1] at h4; exact absurd h4 (lt_irrefl _)
          | block k e a s1 d h1 h2 h3 h4 h5 h6 => rw [ht k h1] at h6; exact absurd h6 (lt_irrefl _)
          | move k e a ao s1 s2 d h1 h2 h3 h4 h5 => rw [ht k h1] at h5; exact absurd h5 (lt_irrefl _)
      rcases quiet_step hN hF h hs h0 hq with ⟨hsame, hlt⟩ | ⟨k, hk, hlt⟩
      · obtain ⟨j, c1, q1, q2, q3, q4⟩ := ih _ hlt rfl hreach hi' (by rw [hsame.qs]; exact ht)
        refine ⟨1 + j, c1, steps_append 1 j (simulate_ok_init hr).2 q1, hsame.trans q2, q3, q4⟩
      · rw [ht k hk] at hlt; exact absurd hlt (lt_irrefl _)

/-- Networks that differ only in the schedule go through the same states as long as there are no ties. -/
theorem same_runs {N : NetCfg T R} (hN : N.OkA) (hF : N.NoLoopA ∨ N.Ok ∧ N.NoInf) {b : Nat → Bool} (m : Nat) :
    ∀ {n c n' : Net T R}, NetReach N b n → NetReach N b c → Same n c → n.initialized = true →
    (∀ i < m, ∀ ni, n.steps N i = .ok ni → NoTies N ni) → n.steps N m = .ok n' →
    ∃ m' c', c.steps N m' = .ok c' ∧ Same n' c' := by
  induction m with
  | zero =>
    intro n c n' hn hc hs hi _ h
    simp only [Net.steps, Except.ok.injEq] at h
    exact ⟨0, c, rfl, h ▸ hs⟩
  | succ m ih =>
    intro n c n' hn hc hs hi hties h
    obtain ⟨n1, hr, hreach, hi1⟩ := step_ok hN hF hn hi
    have hst1 := (simulate_ok_init hr).2
    obtain ⟨-, hs1⟩ := step_of_simulateA hN hn hr
    have hrest : n1.steps N m = .ok n' := by
      simp only [Net.steps] at h hst1
      cases hx : n.step N with
      | error e => rw [hx] at h; simp at h
      | ok y =>
        rw [hx] at h hst1
        simp only [Except.ok.injEq] at hst1
        subst hst1; exact h
    have hties' : ∀ i < m, ∀ ni, n1.steps N i = .ok ni → NoTies N ni := by
      intro i him ni hni
      have := steps_append 1 i hst1 hni
      exact hties (1 + i) (by omega) ni this
    have hci : c.initialized = true := by rw [hs.init]; exact hi
    -- it is enough that the copy reaches a state like `n1`
    suffices hcatch : ∃ j c1, c.steps N j = .ok c1 ∧ NetReach N b c1 ∧ Same n1 c1 by
      obtain ⟨j, c1, p1, p2, p3⟩ := hcatch
      obtain ⟨m', c', p4, p5⟩ := ih hreach p2 p3 hi1 hties' hrest
      exact ⟨j + m', c', steps_append j m' p1 p4, p5⟩
    by_cases h0 : n.heap.size = 0
    · -- nothing left
      have hn1 : n1 = { n with t := ⊤ } := by
        cases hs1 with
        | empty _ e => exact e
        | idle _ _ _ _ h2 => exact absurd h0 h2
        | arrive k s' h1 h2 => exact absurd h0 h2.1
        | block k e a s1 d h1 h2 => exact absurd h0 h2.1
        | move k e a ao s1 s2 d h1 h2 => exact absurd h0 h2.1
      have htop : ∀ k < N.nE, (c.qs k).time = ⊤ := by
        intro k hk
        rw [hs.qs]
        by_contra hx
        exact nonempty_of_eventA (hn.invA hN) ⟨k, hk, lt_top_iff_ne_top.mpr hx⟩ h0
      obtain ⟨j, c1, q1, q2, q3, q4⟩ := drain hN hF hc hci htop
      have hc1 : c1.step N = .ok { c1 with t := ⊤ } := by unfold Net.step; rw [if_pos q4]
      have hsim : c1.simulate N 1 = .ok { c1 with t := ⊤ } := by
        rw [simulate_one, if_pos (by rw [q2.init]; exact hci), hc1]
      refine ⟨j + 1, { c1 with t := ⊤ }, steps_append j 1 q1 (simulate_ok_init hsim).2,
        q3.step .step trivial hsim, ?_⟩
      rw [hn1]
      have := hs.trans q2
      exact ⟨this.qs, this.num, rfl, this.init, this.bas, this.probs, this.unif, this.jit⟩
    · by_cases hq : n1.qs = n.qs
      · -- an idle event: the copy waits
        have hsame : Same n n1 := by
          rcases quiet_step hN hF hn hs1 h0 hq with ⟨g, -⟩ | hev
          · exact g
          · rcases (C45_any_events_partial hN hn hr hev).2 with ⟨k, hk, a, -, g, -⟩ | ⟨g, -⟩
            · exact absurd hq g
            · exact g
        exact ⟨0, c, rfl, hc, hsame.symm.trans hs⟩
      · -- an event: the copy performs the same one
        have hev : ∃ k < N.nE, (n.qs k).time < ⊤ := by
          cases hs1 with
          | empty h' _ => exact absurd h' h0
          | idle _ _ _ _ _ _ _ _ _ e => rw [e] at hq; exact absurd rfl hq
          | arrive k s' h1 h2 h3 h4 => exact ⟨k, h1, h4⟩
          | block k e a s1 d h1 h2 h3 h4 h5 h6 => exact ⟨k, h1, h6⟩
          | move k e a ao s1 s2 d h1 h2 h3 h4 h5 => exact ⟨k, h1, h5⟩
        obtain ⟨j, -, c1, c2, p1, p2, p3, p4, k, hk, a, -, p5, -, -⟩ :=
          C45_any_progress_partial hN hF hc hci (by rw [hs.qs]; exact hev)
        obtain ⟨-, hs2⟩ := step_of_simulateA hN p3 p4
        have := step_det (hs.trans p2) (hties 0 (by omega) n rfl) hs1 hs2 hq p5
        exact ⟨j + 1, c2, steps_append j 1 (simulate_ok_init p1).2 (simulate_ok_init p4).2,
          p3.step .step trivial p4, this⟩

/-- C53, the part that holds: a copy equals the original except for the order of the schedule (and it holds
the same queues' events), and if no two queues ever have their next event at the same time while the original is
simulated, the copy goes through the same states with the same random outcomes (up to idle events,
C45). Missing: runs with ties, for which the claim is false (`C53_copy_differs_in_tie`). -/
theorem C53_copy_partial {N : NetCfg T R} (hN : N.OkA) (hF : N.NoLoopA ∨ N.Ok ∧ N.NoInf) {b : Nat → Bool} {n : Net T R}
    (h : NetReach N b n) :
    ∃ c, n.copy N = some c ∧ Same n c ∧ c.numEvents = n.numEvents ∧ NetReach N b c ∧
      ∀ m n', n.simulate N m = .ok n' → (∀ i < m, ∀ ni, n.simulate N i = .ok ni → NoTies N ni) →
        ∃ m' c', c.simulate N m' = .ok c' ∧ Same n' c' := by
  obtain ⟨h', g1, g2⟩ := (h.invA hN).copy hN
  have hc : NetReach N b { n with heap := h' } := h.step .copy trivial (by simp only [NetOp.run, g1])
  refine ⟨_, g1, ⟨rfl, rfl, rfl, rfl, rfl, rfl, rfl, rfl⟩, rfl, hc, ?_⟩
  intro m n' hr hties
  obtain ⟨hi, hst⟩ := simulate_ok_init hr
  obtain ⟨m', c', q1, q2⟩ := same_runs hN hF m h hc ⟨rfl, rfl, rfl, rfl, rfl, rfl, rfl, rfl⟩ hi
    (fun i him ni hni => hties i him ni (by rw [Net.simulate, if_pos hi, hni])) hst
  exact ⟨m', c', by rw [Net.simulate, if_pos (show ({ n with heap := h' } : Net T R).initialized = true from hi)]; exact q1, q2⟩

/-- Three events without ties. -/
example : (∀ i < 3, (((demoAt i).qs 0).time < ((demoAt i).qs 2).time ∧
    ((demoAt i).qs 0).time ≠ ((demoAt i).qs 1).time ∧ ((demoAt i).qs 2).time < ((demoAt 2).qs 1).time)) := by
  decide +kernel

/-- A network with ResourceQueues, five events without ties. -/
example : rentNet.OkA ∧ rentNet.NoLoopA ∧ NetReach rentNet (fun _ => true) (rentAt 5) ∧
    ∀ i < 5, NoTies rentNet (rentAt i) := by
  refine ⟨rentNet_ok, rentNet_loop, rentAt_reach 5, ?_⟩
  have h : ∀ i < 5, ((rentAt i).qs 0).time ≠ ((rentAt i).qs 1).time ∧ ((rentAt i).qs 2).time = ⊤ := by
    decide +kernel
  intro i hi
  obtain ⟨h1, h2⟩ := h i hi
  intro j hj k hk he hlt
  have hj : j < 3 := hj
  have hk : k < 3 := hk
  interval_cases j <;> interval_cases k <;> first | rfl | exact absurd he h1 | exact absurd he.symm h1 |
    (rw [he] at hlt; exact absurd (h2 ▸ hlt) (lt_irrefl _)) | exact absurd (h2 ▸ hlt) (lt_irrefl _)

/-- C53 as stated is false: queues 0, 1 and 2 have an event at time 10; the original performs the departure
from queue 1, the copy the arrival at queue 2. -/
theorem C53_copy_differs_in_tie : demoNet.Ok ∧ demoNet.NoInf ∧ NetReach demoNet (fun _ => true) (demoAt 8) ∧
    (let c := resNet demoNet (fun _ => true) true demoProbs (demoRun 8 ++ [.copy, .step])
     (demoAt 9).t = 10 ∧ c.t = 10 ∧
       ((demoAt 9).qs 1).numDepartures = 1 ∧ ((demoAt 9).qs 2).numArrivals = 1 ∧
       (c.qs 1).numDepartures = 0 ∧ (c.qs 2).numArrivals = 2) :=
  ⟨demoNet_ok, demoNet_noInf, demoAt_reach 8, by decide +kernel⟩

/-! ## C72: the ids of the agents of a network -/

/-- No two agents have the same id, and agent `(k, i)` is one of those created at queue `k`. -/
structure Ids (N : NetCfg T R) (qs : Nat → QS T) : Prop where
  nodup : (everyone N qs).Nodup
  made : ∀ x ∈ everyone N qs, x.1 < N.nE ∧ x.2 < (qs x.1).oArrivals

theorem Ids.of_perm {N : NetCfg T R} {qs qs' : Nat → QS T} (h : Ids N qs) {new gone : List (Nat × Nat)}
    (hp : (everyone N qs' ++ gone).Perm (new ++ everyone N qs)) (hl : new.length ≤ 1)
    (hn : ∀ x ∈ new, ∃ k < N.nE, x = (k, (qs k).oArrivals) ∧ (qs' k).oArrivals = (qs k).oArrivals + 1)
    (ho : ∀ k < N.nE, k ∉ new.map (·.1) → (qs' k).oArrivals = (qs k).oArrivals) : Ids N qs' := by
  have hnd : (new ++ everyone N qs).Nodup := by
    rw [List.nodup_append]
    refine ⟨?_, h.nodup, ?_⟩
    · match new, hl with
      | [], _ => simp
      | [x], _ => simp
    · intro a ha b hb hab
      obtain ⟨k, hk, rfl, -⟩ := hn a ha
      subst hab
      exact absurd (h.made _ hb).2 (lt_irrefl _)
  refine ⟨(List.nodup_append.mp (hp.nodup_iff.mpr hnd)).1, fun x hx => ?_⟩
  have hmem : x ∈ new ++ everyone N qs := hp.mem_iff.mp (List.mem_append.mpr (.inl hx))
  rcases List.mem_append.mp hmem with hx | hx
  · obtain ⟨k, hk, rfl, h1⟩ := hn x hx
    exact ⟨hk, by simp only [h1]; omega⟩
  · obtain ⟨h1, h2⟩ := h.made x hx
    refine ⟨h1, ?_⟩
    by_cases hm : x.1 ∈ new.map (·.1)
    · obtain ⟨y, hy, hyx⟩ := List.mem_map.mp hm
      obtain ⟨k, hk, rfl, h3⟩ := hn y hy
      simp only at hyx
      rw [← hyx, h3]; rw [← hyx] at h2; omega
    · rw [ho _ h1 hm]; exact h2

theorem Ids.congr {N : NetCfg T R} {qs qs' : Nat → QS T} (h : Ids N qs)
    (h1 : ∀ k, presentIds (qs' k) = presentIds (qs k)) (h2 : ∀ k, (qs' k).oArrivals = (qs k).oArrivals) :
    Ids N qs' := by
  have : everyone N qs' = everyone N qs := by unfold everyone; simp [h1]
  exact ⟨by rw [this]; exact h.nodup, fun x hx => by rw [h2]; exact h.made x (this ▸ hx)⟩

/-- Activating a queue creates at most one agent. -/
theorem setActive_ids {c : QCfg T} {b : Bool} {s s' : QS T} (h : QGoodA c b s) (hs : setActive c s = .ok s') :
    ∃ ext : List (Nat × Nat), (presentIds s').Perm (ext ++ presentIds s) ∧ ext.length ≤ 1 ∧
      s'.oArrivals = s.oArrivals + ext.length ∧ ∀ x ∈ ext, x = (c.edge.idx, s.oArrivals) := by
  have hb := h.base
  rcases h with ⟨hk, h⟩ | ⟨hk, h⟩
  · cases ha : s.active with
    | true =>
      have : s' = s := by unfold setActive at hs; rw [if_pos ha] at hs; simpa using hs.symm
      subst this
      exact ⟨[], by simp⟩
    | false =>
      obtain ⟨arr, ext, ν, act, calls, h1, h2, h3, h4⟩ := setActive_spec c s hk hb.okA hb.time ha
      rw [hs] at h4
      simp only [Except.ok.injEq] at h4
      subst h4
      refine ⟨ext.map (·.id), ?_, by cases h1 <;> simp, by simp, ?_⟩
      · have := (h3.map (·.id)).append_right (s.queue.map (·.id) ++ (agents s.departures).map (·.id))
        simpa [presentIds, List.append_assoc] using this
      · intro x hx
        obtain ⟨a, ha', rfl⟩ := List.mem_map.mp hx
        cases h1 <;> simp_all [newAgent]
  · have : s' = s ∨ s' = { s with active := true } := by
      unfold setActive addArrival at hs
      split at hs
      · left; simpa using hs.symm
      · right; simpa [hk] using hs.symm
    rcases this with rfl | rfl <;> exact ⟨[], by simp [presentIds]⟩

theorem activate_ids {N : NetCfg T R} (hN : N.OkA) {b : Nat → Bool} (l : List Nat) : ∀ {n n' : Net T R},
    (∀ k < N.nE, QGoodA (N.qc k) (b k) (n.qs k)) → Ids N n.qs → Net.activate N l n = .ok n' → Ids N n'.qs := by
  induction l with
  | nil => intro n n' _ h hr; simp only [Net.activate, Except.ok.injEq] at hr; exact hr ▸ h
  | cons e es ih =>
    intro n n' hg h hr
    unfold Net.activate at hr
    split at hr
    · simp at hr
    · rename_i he
      have he : e < N.nE := by omega
      split at hr
      · simp at hr
      · rename_i s hs
        obtain ⟨s', g1, g2, -⟩ := activate_oneA (hN.fwd e he) (hg e he)
        rw [hs] at g1
        simp only [Except.ok.injEq] at g1
        subst g1
        obtain ⟨ext, p1, p2, p3, p4⟩ := setActive_ids (hg e he) hs
        refine ih (n := (n.setQ e s).setNum e s.numTotal) ?_ ?_ hr
        · intro k hk
          show QGoodA (N.qc k) (b k) (Function.update n.qs e s k)
          by_cases hke : k = e
          · subst hke; rw [Function.update_self]; exact g2
          · rw [Function.update_of_ne hke]; exact hg k hk
        · refine h.of_perm (gone := []) (everyone_update he (by simpa using p1)) p2 ?_ ?_
          · intro x hx
            refine ⟨e, he, by rw [p4 x hx, hN.idx e he], ?_⟩
            show (Function.update n.qs e s e).oArrivals = _
            rw [Function.update_self, p3]
            have : 0 < ext.length := List.length_pos_of_mem hx
            omega
          · intro k hk hx
            show (Function.update n.qs e s k).oArrivals = _
            by_cases hke : k = e
            · subst hke
              rw [Function.update_self, p3]
              cases ext with
              | nil => rfl
              | cons y l => exact absurd (by simp [p4 y, hN.idx k he]) hx
            · rw [Function.update_of_ne hke]


theorem collect_keeps (b : Bool) (ks : List Nat) : ∀ (n : Net T R) (k : Nat),
    presentIds ((n.collect b ks).qs k) = presentIds (n.qs k) ∧
      ((n.collect b ks).qs k).oArrivals = (n.qs k).oArrivals := by
  induction ks with
  | nil => intro n k; exact ⟨rfl, rfl⟩
  | cons e es ih =>
    intro n k
    have := ih (n.setQ e { n.qs e with collectData := b }) k
    rw [Net.collect, this.1, this.2]
    simp only [Net.setQ]
    by_cases hke : k = e
    · subst hke; simp [presentIds]
    · simp [Function.update_of_ne hke]

theorem clearData_keeps (ks : List Nat) : ∀ (n : Net T R) (k : Nat),
    presentIds ((n.clearData ks).qs k) = presentIds (n.qs k) ∧
      ((n.clearData ks).qs k).oArrivals = (n.qs k).oArrivals := by
  induction ks with
  | nil => intro n k; exact ⟨rfl, rfl⟩
  | cons e es ih =>
    intro n k
    have := ih (n.setQ e { n.qs e with data := [] }) k
    rw [Net.clearData, this.1, this.2]
    simp only [Net.setQ]
    by_cases hke : k = e
    · subst hke; simp [presentIds]
    · simp [Function.update_of_ne hke]

theorem startServ_ids (c : QCfg T) (t : T) (l : List (Agent T)) : ∀ n,
    (startServ c n t l).map (·.id) = l.map (·.id) := by
  induction l with
  | nil => intro n; rfl
  | cons a l ih => intro n; simp [startServ, ih]

theorem setServers_ids {c : QCfg T} {b : Bool} {s : QS T} (h : QGoodA c b s) (m : PyNum) :
    (presentIds (setNumServers c s m).1).Perm (presentIds s) ∧ (setNumServers c s m).1.oArrivals = s.oArrivals := by
  rcases h with ⟨hk, h⟩ | ⟨hk, h⟩
  · rcases kind_cases hk with hk | hk
    · have hspec := setNumServers_spec c s m hk (h.base hk).okD
      generalize (setNumServers c s m).1 = s' at *
      generalize (setNumServers c s m).2 = r at *
      cases hspec with
      | typ _ => exact ⟨.refl _, rfl⟩
      | val _ _ _ => exact ⟨.refl _, rfl⟩
      | ok new j deps h1 h2 h3 h4 h5 =>
        refine ⟨?_, rfl⟩
        rw [List.perm_iff_count]
        intro x
        have c1 := List.perm_iff_count.mp (h5.map (·.id)) x
        have c2 := congrArg (List.count x) (congrArg (List.map (·.id)) (List.take_append_drop j s.queue))
        simp only [presentIds, List.map_append, startServ_ids, List.count_append] at c1 c2 ⊢
        omega
    · have ho := rOut c s _ (.setServers m) hk (h.baseR hk) rfl
      generalize (setNumServers c s m).1 = s' at *
      cases ho with
      | srv n m h1 => exact ⟨.refl _, rfl⟩
      | srvErr => exact ⟨.refl _, rfl⟩
  · have e : (setNumServers c s m).1 = s := by simp [setNumServers, hk]
    rw [e]; exact ⟨.refl _, rfl⟩

/-- C72: at every point of the history of a network no two of the agents in it have the same id, whichever
queues they are at, and an agent `(k, i)` is the `i`-th agent created at queue `k`. -/
theorem C72_ids_distinct {N : NetCfg T R} (hN : N.OkA) {b : Nat → Bool} {n : Net T R} (h : NetReach N b n) :
    (everyone N n.qs).Nodup ∧ ∀ x ∈ everyone N n.qs, x.1 < N.nE ∧ x.2 < (n.qs x.1).oArrivals := by
  suffices Ids N n.qs from ⟨this.nodup, this.made⟩
  induction h with
  | new bas probs hp =>
    have : everyone N (Net.init N b bas probs).qs = [] := by
      rw [List.eq_nil_iff_forall_not_mem]
      intro x hx
      obtain ⟨k, hk, hx⟩ := mem_everyone.mp hx
      simp [Net.init, QS.init, presentIds, agents] at hx
    exact ⟨by rw [this]; simp, by rw [this]; simp⟩
  | @step n n' op h ha hr ih =>
    cases op with
    | step =>
      obtain ⟨new, gone, g1, g2, -, g3, -, g4⟩ := C100_agents_conserved hN h hr
      exact ih.of_perm g1 g2 g3 g4
    | initialise pick a =>
      have hr : n.initialise N pick a = .ok n' := hr
      unfold Net.initialise at hr
      split at hr
      · simp at hr
      · split at hr
        · simp at hr
        · split at hr
          · simp at hr
          · split at hr
            · simp at hr
            · rename_i n1 h1
              split at hr
              · simp at hr
              · simp only [Except.ok.injEq] at hr
                subst hr
                exact (activate_ids hN _ (h.invA hN).good ih h1 : Ids N n1.qs)
    | clear =>
      have hr : n.clear N = n' := by simpa [NetOp.run] using hr
      have := (C52_clear hN h).2.2.2.2.2.2.1
      rw [hr] at this
      exact ⟨by rw [this]; simp, by rw [this]; simp⟩
    | collect v ks =>
      have hr : n.collect v ks = n' := by simpa [NetOp.run] using hr
      subst hr
      exact ih.congr (fun k => (collect_keeps v ks n k).1) (fun k => (collect_keeps v ks n k).2)
    | clearData ks =>
      have hr : n.clearData ks = n' := by simpa [NetOp.run] using hr
      subst hr
      exact ih.congr (fun k => (clearData_keeps ks n k).1) (fun k => (clearData_keeps ks n k).2)
    | setProbs p =>
      simp only [NetOp.run, Except.ok.injEq] at hr
      subst hr; exact ih
    | setBlocking v =>
      simp only [NetOp.run, Except.ok.injEq] at hr
      subst hr; exact ih
    | copy =>
      obtain ⟨h', g1, -⟩ := (h.invA hN).copy hN
      simp only [NetOp.run, g1, Except.ok.injEq] at hr
      subst hr; exact ih
    | setServers k m =>
      simp only [NetOp.run, Except.ok.injEq] at hr
      subst hr
      obtain ⟨p1, p2⟩ := setServers_ids ((h.invA hN).good k ha.1) m
      refine ih.of_perm (new := []) (gone := []) (everyone_update ha.1 (by simpa using p1)) (by simp) (by simp) ?_
      intro j hj _
      show (Function.update n.qs k _ j).oArrivals = _
      by_cases hjk : j = k
      · subst hjk; rw [Function.update_self, p2]
      · rw [Function.update_of_ne hjk]
    | setInactive k =>
      simp only [NetOp.run, Except.ok.injEq] at hr
      subst hr
      refine ih.congr (fun j => ?_) (fun j => ?_)
      · show presentIds (Function.update n.qs k _ j) = _
        by_cases hjk : j = k
        · subst hjk; rw [Function.update_self]; rfl
        · rw [Function.update_of_ne hjk]
      · show (Function.update n.qs k _ j).oArrivals = _
        by_cases hjk : j = k
        · subst hjk; rw [Function.update_self]; rfl
        · rw [Function.update_of_ne hjk]

theorem _root_.Verif.StepOut.stays {N : NetCfg T R} {n n' : Net T R} (h : StepOut N n n')
    (hi : n.initialized = true) : n'.initialized = true := by
  cases h with
  | empty _ e => rw [e]; exact hi
  | idle _ _ _ _ _ _ _ _ _ e => rw [e]; exact hi
  | arrive k s' a1 a2 a3 a4 a5 a6 a7 a8 a9 a10 a11 a12 a13 => rw [a13.init]; exact hi
  | block k e a s1 d a1 a2 a3 a4 a5 a6 a7 a8 a9 a10 a11 a12 a13 a14 a15 a16 a17 a18 => rw [a18.init]; exact hi
  | move k e a s1 s2 d a1 a2 a3 a4 a5 a6 a7 a8 a9 a10 a11 a12 a13 a14 a15 a16 a17 => rw [a17.init]; exact hi

/-- C72: while a network is simulated the ids of agents that have left are not used again: an agent present
after `m` events was there before or was created since. -/
theorem C72_ids_not_reused {N : NetCfg T R} (hN : N.OkA) {b : Nat → Bool} (m : Nat) : ∀ {n n' : Net T R},
    NetReach N b n → n.initialized = true → n.simulate N m = .ok n' →
    NetReach N b n' ∧ (∀ k < N.nE, (n.qs k).oArrivals ≤ (n'.qs k).oArrivals) ∧
      ∀ x ∈ everyone N n'.qs, x ∈ everyone N n.qs ∨ (n.qs x.1).oArrivals ≤ x.2 := by
  induction m with
  | zero =>
    intro n n' h hi hr
    have := (simulate_ok_init hr).2
    simp only [Net.steps, Except.ok.injEq] at this
    subst this
    exact ⟨h, fun _ _ => le_rfl, fun x hx => .inl hx⟩
  | succ m ih =>
    intro n n' h hi hr
    have hst := (simulate_ok_init hr).2
    simp only [Net.steps] at hst
    cases hx : n.step N with
    | error e => rw [hx] at hst; simp at hst
    | ok y =>
      rw [hx] at hst
      have hy : n.simulate N 1 = .ok y := by rw [simulate_one, if_pos hi, hx]
      have hyr : NetReach N b y := h.step .step trivial hy
      have hyi : y.initialized = true := (stepA_mono hN (h.invA hN) (step_of_simulateA hN h hy).2).2.trans hi
      obtain ⟨p0, p1, p2⟩ := ih hyr hyi (by rw [Net.simulate, if_pos hyi]; exact hst)
      obtain ⟨new, gone, g1, g2, -, g3, -, g4⟩ := C100_agents_conserved hN h hy
      have hmono : ∀ k < N.nE, (n.qs k).oArrivals ≤ (y.qs k).oArrivals := by
        intro k hk
        by_cases hm : k ∈ new.map (·.1)
        · obtain ⟨z, hz, hzk⟩ := List.mem_map.mp hm
          obtain ⟨k', -, rfl, h3⟩ := g3 z hz
          simp only at hzk
          subst hzk; omega
        · rw [g4 k hk hm]
      refine ⟨p0, fun k hk => (hmono k hk).trans (p1 k hk), fun x hx' => ?_⟩
      have hlt := ((C72_ids_distinct hN p0).2 x hx').1
      rcases p2 x hx' with hxy | hle
      · have := g1.mem_iff.mp (List.mem_append.mpr (.inl hxy))
        rcases List.mem_append.mp this with hn | hn
        · obtain ⟨k', -, rfl, -⟩ := g3 x hn
          exact .inr le_rfl
        · exact .inl hn
      · exact .inr ((hmono _ hlt).trans hle)

/-- Agents created at queue 0 are at queues 0 and 1, beside agents created there. -/
example : everyone demoNet (demoAt 12).qs = [(0, 3), (0, 4), (0, 2), (2, 2), (0, 1), (2, 1)] := by
  decide +kernel

/-- Three agents wait, rent and have rented at `rentNet`. -/
example : rentNet.OkA ∧ NetReach rentNet (fun _ => true) (rentAt 7) ∧
    everyone rentNet (rentAt 7).qs = [(0, 2), (0, 1), (0, 0)] :=
  ⟨rentNet_ok, rentAt_reach 7, by decide +kernel⟩

end Verif.NetSpec
