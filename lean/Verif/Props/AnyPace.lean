import Verif.Props.NetPace
import Verif.Props.AnyNet2

/-!
# `simulate(t=d)` ends in networks with queues of every class (C114)

Queue_network.py lines 1297-1300: `while self._t < now + t: self._simulate_next_event(slow=False)`.
-/

set_option linter.unusedSectionVars false
set_option linter.unusedSimpArgs false
set_option linter.unusedVariables false

namespace Verif

variable {T R : Type*} [LinearOrder T] [OrderTop T] [Zero T] [LinearOrder R] [Add R]

/-- `φ t` bounds how many services, interarrival times and retries in a row fit between `t` and the horizon `u`. -/
structure PaceA (N : NetCfg T R) (u : T) (φ : T → Nat) : Prop where
  anti : ∀ s t, s ≤ t → t < u → φ t ≤ φ s
  svc : ∀ k < N.nE, (N.qc k).kind ≠ .null → ∀ i t, (N.qc k).serviceF i t < u → φ ((N.qc k).serviceF i t) < φ t
  arr : ∀ k < N.nE, (N.qc k).kind ≠ .null → ∀ i t, (N.qc k).arrivalF i t < u → φ ((N.qc k).arrivalF i t) < φ t
  jit : ∀ i t, N.jit i t < u → φ (N.jit i t) < φ t

variable {c : QCfg T} {u : T} {φ : T → Nat}

theorem PaceA.queue {N : NetCfg T R} (h : PaceA N u φ) {k : Nat} (hk : k < N.nE) (hs : (N.qc k).kind ≠ .null) :
    PaceQ (N.qc k) u φ := ⟨h.anti, h.svc k hk hs, h.arr k hk hs⟩

/-- An agent that deposits a resource or is turned away leaves. -/
theorem ResGone.pace (h : PaceQ c u φ) {s s' : QS T} {a : Agent T} (e : ResGone s s' a)
    (hcl : s.currentT ≤ headTime s.arrivals) (ht : headTime s.arrivals < u) : pot u φ s' < pot u φ s := by
  rw [← e.time_eq] at hcl ht
  have g2 : load u φ 2 s.arrivals = (3 * φ a.time + 2) + load u φ 2 s'.arrivals := by
    rw [load_perm e.perm, List.map_cons, List.sum_cons, till_lt ht]; rfl
  have g4 := Nat.mul_le_mul_left s.queue.length (h.till 1 hcl ht)
  have g6 : stream u φ s' = stream u φ s := by unfold stream; rw [e.active, e.nextCt]
  unfold pot
  rw [e.currentT, e.departures, e.queue, g6]
  omega

theorem EvA.pace (h : PaceQ c u φ) {s s' : QS T} (he : EvA c s s' none) (hcl : s.currentT ≤ headTime s.arrivals)
    (ht : headTime s.arrivals < u) : pot u φ s' < pot u φ s := by
  cases he with
  | simple hk he => exact he.pace h hcl ht
  | resource hk he =>
    cases he with
    | idle e => rw [e] at ht; exact absurd ht (not_lt.mpr le_top)
    | arr a rest _ _ _ _ e =>
      have hat := e.time_eq
      rw [← hat] at hcl ht
      have g1 := e.ext.pace h ht
      have g2 : load u φ 2 s.arrivals = (3 * φ a.time + 2) + load u φ 2 rest := by
        rw [load_perm e.perm, List.map_cons, List.sum_cons, till_lt ht]; rfl
      have g4 := Nat.mul_le_mul_left s.queue.length (h.till 1 hcl ht)
      unfold pot
      rw [e.currentT]
      obtain ⟨k, n, om, -, ⟨k', -, e2, -, e3, -⟩ | ⟨-, e2, -, -, e3, -⟩⟩ := e.served
      · rw [e2, load_perm e3, List.map_cons, List.sum_cons]
        have g5 := h.start s.svcCalls ht
        show _ + _ + (till u φ 3 (c.serviceF s.svcCalls a.time) + load u φ 3 s.departures) + _ < _
        omega
      · rw [e2, e3, List.length_append, List.length_singleton, Nat.add_mul, Nat.one_mul]
        have g5 : till u φ 1 a.time = 3 * φ a.time + 1 := till_lt ht
        omega
    | block a rest h1 h2 h3 _ h5 e =>
      have hat := e.time_eq
      rw [← hat] at hcl ht
      have g1 := e.ext.pace h ht
      have g2 : load u φ 2 s.arrivals = (3 * φ a.time + 2) + load u φ 2 rest := by
        rw [load_perm e.perm, List.map_cons, List.sum_cons, till_lt ht]; rfl
      have g4 := Nat.mul_le_mul_left s.queue.length (h.till 1 hcl ht)
      unfold pot
      rw [e.currentT, e.queue, e.departures]
      omega
    | deposit a had _ _ _ e => exact e.pace h hcl ht
    | full a had _ _ _ _ e => exact e.pace h hcl ht

theorem DepEffA.pace (h : PaceQ c u φ) {s s' : QS T} {a a' : Agent T} (he : DepEffA c s s' a a') (hcl : s.currentT ≤ s.time)
    (ht : s.time < u) : pot u φ s' + (3 * φ a'.time + 3) ≤ pot u φ s ∧ (∀ x ∈ agents s'.arrivals, x ∈ agents s.arrivals) ∧
      headTime s'.arrivals = headTime s.arrivals := by
  have htm := he.time
  have ho := he.out
  rw [← htm] at hcl ht
  cases ho with
  | simple hk ho =>
    cases ho with
    | dep _ _ e _ => exact ⟨e.pace h hcl ht, by rw [e.arrivals]; simp, by rw [e.arrivals]⟩
  | resource hk ho =>
    cases ho with
    | dep b _ _ e =>
      have hb : a'.time = b.time := by rw [e.same]
      rw [hb] at hcl ht ⊢
      refine ⟨?_, by rw [e.arrivals]; simp, by rw [e.arrivals]⟩
      have g3 := h.till 1 hcl ht
      obtain ⟨deps, d1, -, d2⟩ := e.served
      have g2 : load u φ 3 s.departures = (3 * φ b.time + 3) + load u φ 3 deps := by
        rw [load_perm d1, List.map_cons, List.sum_cons, till_lt ht]; rfl
      have g6 : stream u φ s' = stream u φ s := by unfold stream; rw [e.active, e.nextCt]
      have g5 : till u φ 1 b.time = 3 * φ b.time + 1 := till_lt ht
      unfold pot
      rw [e.currentT, e.arrivals, g6]
      rcases d2 with ⟨b', rest, k, n, om, e1, -, -, -, e2, e4, -⟩ | ⟨-, -, e1, e3, -⟩
      · rw [e1, e2, load_perm e4, List.map_cons, List.sum_cons, List.length_cons, Nat.add_mul, Nat.one_mul]
        have g4 := Nat.mul_le_mul_left rest.length g3
        have g7 := h.start s.svcCalls ht
        show _ + _ + (till u φ 3 (c.serviceF s.svcCalls b.time) + load u φ 3 deps) + _ + _ ≤ _
        omega
      · have g4 := Nat.mul_le_mul_left s.queue.length g3
        rw [e1, e3]
        omega

theorem RecvEffA.pace (h : PaceQ c u φ) {s s' : QS T} {a : Agent T} {off : QS T → Bool} (he : RecvEffA c s s' a off)
    (hk : c.kind ≠ .null) (hA : HeapOK s.arrivals) (hT : s.time = nextTime s) (hcl : s.currentT ≤ a.time)
    (hle : a.time ≤ headTime s.arrivals) (ht : a.time < u) : pot u φ s' < pot u φ s + (3 * φ a.time + 2) := by
  obtain ⟨m, m1, m2, m3, m4, m5, m6, m7, m8, m9, m10, m11, m12, m13⟩ := he.mid
  obtain ⟨arr, -, -, h3, h4⟩ := handover_spec c s a hk hA hT
  rw [h4] at m1
  simp only [Except.ok.injEq] at m1
  have hcur : m.currentT = s.currentT := by rw [← m1]
  have hnx : m.nextCt = s.nextCt := by rw [← m1]
  have hhd : headTime m.arrivals = a.time := by
    rw [← m1]; show headTime arr = _; rw [h3]; exact min_eq_left hle
  have hw : pot u φ m = pot u φ s + (3 * φ a.time + 2) := by
    have g6 : stream u φ m = stream u φ s := by unfold stream; rw [m3, hnx]
    unfold pot
    rw [load_perm m8, List.map_cons, List.sum_cons, m9, m10, hcur, g6, till_lt ht]
    show _ + load u φ 2 s.arrivals + _ + _ + _ = _
    omega
  have hm := maybeInactive_same (off m) m
  have g1 := m13.out.pace h (by
    rw [hm.1, hhd]
    cases off m <;> exact hcur ▸ hcl) (by rw [hm.1, hhd]; exact ht)
  have := pot_inactive (u := u) (φ := φ) (off m) m
  omega

/-- An event takes the clock to `u`, or lowers the potential, or does nothing but shorten the schedule. -/
theorem StepOutA.pace {N : NetCfg T R} (hN : N.OkA) (hp : PaceA N u φ) {b : Nat → Bool} {n n' : Net T R}
    (hi : NetInvA N b n) (h : StepOutA N n n') :
    u ≤ n'.t ∨ netPot N u φ n'.qs < netPot N u φ n.qs ∨ (n'.qs = n.qs ∧ n'.heap.size < n.heap.size) := by
  cases h with
  | empty h0 h1 => left; rw [h1]; exact le_top
  | idle k x hq h1 h2 h3 h4 h5 h6 h7 =>
    right; right
    exact ⟨by rw [h7], by rw [h7]; exact pop_shrinksA hi h2 h6⟩
  | arrive k s' h1 h2 h3 h4 h5 h6 h7 h8 h9 h10 =>
    by_cases hu : (n.qs k).time < u
    swap
    · left; rw [h10]; exact not_lt.mp hu
    right; left
    have hcl : (n.qs k).currentT ≤ (n.qs k).time := (hi.clk k h1 h3).trans (hi.tau k h1)
    have htime : (n.qs k).time = headTime (n.qs k).arrivals := by
      rcases desc_casesA (hi.good k h1) with ⟨g1, -⟩ | ⟨-, -, -, -, g1, -⟩ | ⟨g1, -⟩
      · rw [g1] at h6; exact absurd h6 (by decide)
      · exact g1
      · rw [g1] at h6; exact absurd h6 (by decide)
    have hm := maybeInactive_same ((n.qs k).active && n.maxed N) (n.qs k)
    have g1 := h7.out.pace (hp.queue h1 h3) (by
      rw [hm.1, ← htime]
      cases (n.qs k).active && n.maxed N <;> exact hcl) (by rw [hm.1, ← htime]; exact hu)
    have g3 := pot_inactive (u := u) (φ := φ) ((n.qs k).active && n.maxed N) (n.qs k)
    rw [h8]
    have := netPot_update (u := u) (φ := φ) (qs := n.qs) h1 s'
    omega
  | block k e a s1 d h1 h2 h3 h4 h5 h6 h7 h8 h9 h10 h11 h12 h13 h14 h15 =>
    by_cases hu : (n.qs k).time < u
    swap
    · left; rw [h15]; exact not_lt.mp hu
    right; left
    obtain ⟨s1e, s2e, s3e, s4e, s5e, s6e, s7e, s8e, s9e, -⟩ := h12.same
    obtain ⟨rest, d1, d2⟩ := h12.deps
    rcases desc_casesA (hi.good k h1) with ⟨g1, -⟩ | ⟨g1, -⟩ | ⟨g1, g2, g3, g4, g5, g6⟩
    · rw [g1] at h8; exact absurd h8 (by decide)
    · rw [g1] at h8; exact absurd h8 (by decide)
    have hat : a.time = (n.qs k).time := by
      rw [g5]
      have := h12.head
      cases hd : (n.qs k).departures with
      | nil => rw [hd] at this; simp at this
      | cons y l => rw [hd] at this; simp at this; subst this; rfl
    have hnx : s1.nextCt = (n.qs k).nextCt := by
      have := h12.out
      cases this <;> rfl
    have hlt : pot u φ s1 < pot u φ (n.qs k) := by
      have g8 : stream u φ s1 = stream u φ (n.qs k) := by unfold stream; rw [s6e, hnx]
      unfold pot
      rw [s1e, s2e, s3e, g8, load_perm d1, load_perm d2, List.map_cons, List.map_cons, List.sum_cons, List.sum_cons,
        till_lt (hat ▸ hu : a.time < u)]
      simp only
      have : till u φ 3 ((if n.bas = true then some (N.jit n.jitCalls (headTime (n.qs e).departures)) else none).getD
          ((N.qc k).serviceF (n.qs k).svcCalls a.time)) < 3 * φ a.time + 3 := by
        cases n.bas with
        | true =>
          simp only [if_true, Option.getD_some, till]
          split
          · rename_i hj
            have q1 := hp.jit _ _ hj
            have q2 : a.time ≤ headTime (n.qs e).departures := by
              rw [hat]
              refine (h7 e h3).trans ?_
              rw [(hi.good e h3).base.time, nextTime]
              exact min_le_right _ _
            have q3 := hp.anti _ _ q2 ((hN.jit _ _).trans_lt hj)
            omega
          · omega
        | false =>
          simp only [Bool.false_eq_true, if_false, Option.getD_none]
          have := (hp.queue h1 h5).start (n.qs k).svcCalls (hat ▸ hu : a.time < u)
          omega
      omega
    rw [h13]
    have w1 := netPot_update (u := u) (φ := φ)
      (qs := Function.update n.qs e { n.qs e with numBlocked := (n.qs e).numBlocked + 1 }) h1 s1
    have w2 := netPot_update (u := u) (φ := φ) (qs := n.qs) h3 { n.qs e with numBlocked := (n.qs e).numBlocked + 1 }
    rw [Function.update_of_ne h4] at w1
    have w3 : pot u φ { n.qs e with numBlocked := (n.qs e).numBlocked + 1 } = pot u φ (n.qs e) := rfl
    omega
  | move k e a a' s1 s2 d h1 h2 h3 h4 h5 h6 h7 h8 h9 h10 h11 h12 h13 h14 =>
    by_cases hu : (n.qs k).time < u
    swap
    · left; rw [h14]; exact not_lt.mp hu
    right; left
    have hcl : (n.qs k).currentT ≤ (n.qs k).time := (hi.clk k h1 h4).trans (hi.tau k h1)
    obtain ⟨w1, -, w2⟩ := h10.pace (hp.queue h1 h4) hcl hu
    have u1 := netPot_update (u := u) (φ := φ) (qs := n.qs) h1 s1
    have u2 := netPot_update (u := u) (φ := φ) (qs := Function.update n.qs k s1) h3 s2
    have hat := h10.time
    suffices hs2 : pot u φ s2 ≤ pot u φ (Function.update n.qs k s1 e) + (3 * φ a'.time + 2) by
      rw [h12]; omega
    cases h11 with
    | null m g1 g2 g3 g4 g5 =>
      have hm : pot u φ m = pot u φ (Function.update n.qs k s1 e) := by
        unfold addArrivalAgent at g2
        rw [if_pos g1] at g2
        simp only [Except.ok.injEq] at g2
        rw [← g2]
        split <;> rfl
      have := pot_inactive (u := u) (φ := φ) (stopAt N n k e s1.numTotal m) m
      rw [g5]
      omega
    | queue g1 g2 =>
      have hbk := (hi.good k h1).base
      have hA : a'.time ≤ headTime (n.qs k).arrivals := by rw [hat, hbk.time, nextTime]; exact min_le_left _ _
      have key : HeapOK (Function.update n.qs k s1 e).arrivals ∧
          (Function.update n.qs k s1 e).time = nextTime (Function.update n.qs k s1 e) ∧
          (Function.update n.qs k s1 e).currentT ≤ a'.time ∧
          a'.time ≤ headTime (Function.update n.qs k s1 e).arrivals := by
        by_cases hke : e = k
        · subst hke
          rw [Function.update_self]
          have hq : s1.arrivals = (n.qs e).arrivals ∧ s1.time = nextTime s1 := by
            have ho := h10.out
            cases ho with
            | simple _ ho => cases ho with | dep _ _ x _ => exact ⟨x.arrivals, x.time⟩
            | resource _ ho => cases ho with | dep _ _ _ x => exact ⟨x.arrivals, x.time⟩
          exact ⟨by rw [hq.1]; exact hbk.okA, hq.2, by rw [h10.cur, hat], by rw [hq.1]; exact hA⟩
        · rw [Function.update_of_ne hke]
          have hbe := (hi.good e h3).base
          refine ⟨hbe.okA, hbe.time, ?_, ?_⟩
          · rw [hat]; exact (hi.clk e h3 g1).trans (hi.tau k h1)
          · rw [hat]
            refine (h6 e h3).trans ?_
            rw [hbe.time, nextTime]
            exact min_le_left _ _
      exact (g2.pace (hp.queue h3 g1) g1 key.1 key.2.1 key.2.2.1 key.2.2.2 (hat ▸ hu)).le

namespace NetSpec

/-- C114: let `φ t` bound how many services, interarrival times and retries of blocked agents in a row fit between `t`
and `u`. Then the loop that simulates until `u` ends. -/
theorem C114_until_ends {N : NetCfg T R} (hN : N.OkA) {u : T} {φ : T → Nat} (hp : PaceA N u φ) {b : Nat → Bool} :
    ∀ {n : Net T R}, NetReach N b n → n.initialized = true → ∃ fuel, n.stepsUntil N u fuel ≠ none := by
  have main : ∀ v h (n : Net T R), netPot N u φ n.qs = v → n.heap.size = h → NetReach N b n → n.initialized = true →
      ∃ fuel, n.stepsUntil N u fuel ≠ none := by
    intro v
    induction v using Nat.strong_induction_on with
    | _ v ihv =>
      intro h
      induction h using Nat.strong_induction_on with
      | _ h ihh =>
        intro n hv hh hr hin
        by_cases ht : n.t < u
        swap
        · exact ⟨0, by simp [Net.stepsUntil, ht]⟩
        rcases step_specA hN (hr.invA hN) hin with ⟨n', g1, g2, -⟩ | ⟨g1, -⟩
        · have hr1 : n.simulate N 1 = .ok n' := by rw [simulate_one, if_pos hin, g1]
          have hr' := hr.step .step trivial hr1
          have hin' : n'.initialized = true := by
            cases g2 with
            | empty _ q => rw [q]; exact hin
            | idle _ _ _ _ _ _ _ _ _ q => rw [q]; exact hin
            | arrive _ _ _ _ _ _ _ _ _ _ _ _ _ _ q => rw [q.init]; exact hin
            | block _ _ _ _ _ _ _ _ _ _ _ _ _ _ _ _ _ _ _ _ _ _ q => rw [q.init]; exact hin
            | move _ _ _ _ _ _ _ _ _ _ _ _ _ _ _ _ _ _ _ _ _ _ _ q => rw [q.init]; exact hin
          have next : (∃ fuel, n'.stepsUntil N u fuel ≠ none) → ∃ fuel, n.stepsUntil N u fuel ≠ none := by
            rintro ⟨fuel, hf⟩
            exact ⟨fuel + 1, by rw [Net.stepsUntil, if_pos ht, g1]; exact hf⟩
          refine next ?_
          rcases g2.pace hN hp (hr.invA hN) with q | q | ⟨q1, q2⟩
          · exact ⟨0, by simp [Net.stepsUntil, not_lt.mpr q]⟩
          · exact ihv _ (hv ▸ q) _ n' rfl rfl hr' hin'
          · exact ihh _ (hh ▸ q2) n' (by rw [q1, hv]) rfl hr' hin'
        · exact ⟨1, by rw [Net.stepsUntil, if_pos ht, g1]; simp⟩
  exact fun {n} hr hin => main _ _ n rfl rfl hr hin

theorem stepsUntil_end {N : NetCfg T R} {u : T} : ∀ (fuel : Nat) {n n' : Net T R},
    n.stepsUntil N u fuel = some (.ok n') → u ≤ n'.t
  | 0, n, n', hc => by
    unfold Net.stepsUntil at hc
    split at hc
    · simp at hc
    · rename_i h; simp only [Option.some.injEq, Except.ok.injEq] at hc; rw [← hc]; exact not_lt.mp h
  | fuel + 1, n, n', hc => by
    unfold Net.stepsUntil at hc
    split at hc
    · split at hc
      · simp at hc
      · exact stepsUntil_end fuel hc
    · rename_i h; simp only [Option.some.injEq, Except.ok.injEq] at hc; rw [← hc]; exact not_lt.mp h

/-- C114: so `simulate(t=d)` ends. If no queue leads to itself, the clock has then got to the end of the period;
otherwise it may also have raised TypeError. -/
theorem C114_simulate_ends [Add T] {N : NetCfg T R} (hN : N.OkA) {b : Nat → Bool} {n : Net T R} (d : T)
    {φ : T → Nat} (hp : PaceA N (n.t + d) φ) (hr : NetReach N b n) (hin : n.initialized = true) :
    ∃ fuel, (∃ n', n.simulateT N d fuel = some (.ok n') ∧ n.t + d ≤ n'.t) ∨
      (¬ N.NoLoopA ∧ n.simulateT N d fuel = some (.error (.py .typeError))) := by
  obtain ⟨fuel, hf⟩ := C114_until_ends hN hp hr hin
  have hs : n.simulateT N d fuel = n.stepsUntil N (n.t + d) fuel := by rw [Net.simulateT, if_pos hin]
  refine ⟨fuel, ?_⟩
  rw [hs]
  cases hc : n.stepsUntil N (n.t + d) fuel with
  | none => exact absurd hc hf
  | some r =>
    cases r with
    | ok n' => exact .inl ⟨n', rfl, stepsUntil_end fuel hc⟩
    | error e =>
      right
      refine ⟨fun hF => C99_never_crashes_until hN hF hr hin d fuel e (hs ▸ hc), ?_⟩
      clear hp hf hs
      generalize n.t + d = u at hc
      induction fuel generalizing n with
      | zero => unfold Net.stepsUntil at hc; split at hc <;> simp at hc
      | succ fuel ih =>
        unfold Net.stepsUntil at hc
        split at hc
        · split at hc
          · rename_i e' he
            simp only [Option.some.injEq, Except.error.injEq] at hc
            subst hc
            have hr1 : n.simulate N 1 = .error e' := by rw [simulate_one, if_pos hin, he]
            rw [(C99_only_error hN hr hin hr1).1]
          · rename_i n1 he
            have hr1 : n.simulate N 1 = .ok n1 := by rw [simulate_one, if_pos hin, he]
            refine ih (hr.step .step trivial hr1) ?_ hc
            rcases step_specA hN (hr.invA hN) hin with ⟨n', g1, g2, -⟩ | ⟨g1, -⟩
            · rw [he] at g1
              simp only [Except.ok.injEq] at g1
              subst g1
              cases g2 with
              | empty _ q => rw [q]; exact hin
              | idle _ _ _ _ _ _ _ _ _ q => rw [q]; exact hin
              | arrive _ _ _ _ _ _ _ _ _ _ _ _ _ _ q => rw [q.init]; exact hin
              | block _ _ _ _ _ _ _ _ _ _ _ _ _ _ _ _ _ _ _ _ _ _ q => rw [q.init]; exact hin
              | move _ _ _ _ _ _ _ _ _ _ _ _ _ _ _ _ _ _ _ _ _ _ _ q => rw [q.init]; exact hin
            · rw [he] at g1; simp at g1
        · simp at hc

/-- C114 in numbers: if, in exact arithmetic, services, interarrival times and retries take at least `δ > 0`, then
`simulate(t=d)` ends for every `d`. -/
theorem C114_pace_of_step {K : Type*} [Field K] [LinearOrder K] [IsStrictOrderedRing K] [FloorSemiring K]
    {N : NetCfg (WithTop K) R} {δ : K} (hδ : 0 < δ)
    (hsvc : ∀ k < N.nE, (N.qc k).kind ≠ .null → ∀ i t, t + (δ : WithTop K) ≤ (N.qc k).serviceF i t)
    (harr : ∀ k < N.nE, (N.qc k).kind ≠ .null → ∀ i t, t + (δ : WithTop K) ≤ (N.qc k).arrivalF i t)
    (hjit : ∀ i t, t + (δ : WithTop K) ≤ N.jit i t) (u : K) :
    PaceA N (u : WithTop K) (fun t => ⌈(u - t.untopD u) / δ⌉₊) :=
  ⟨pace_anti hδ u, fun k hk hs i t h => pace_key hδ u _ _ (hsvc k hk hs i t) h,
    fun k hk hs i t h => pace_key hδ u _ _ (harr k hk hs i t) h, fun i t h => pace_key hδ u _ _ (hjit i t) h⟩

/-! ## Example -/

theorem rentNet_pace {u : ℕ∞} (hu : u < ⊤) : PaceA rentNet u (fun t => (u - t).toNat) where
  anti := fun s t hst ht => ENat.toNat_le_toNat (tsub_le_tsub_left hst u) ((tsub_le_self.trans_lt hu).ne)
  svc := by
    intro k hk _ i t h
    have : k = 0 ∨ k = 1 ∨ k = 2 := by
      have : k < 3 := hk
      omega
    rcases this with rfl | rfl | rfl
    · exact pace_step hu 1 (by omega) t h
    · exact pace_step hu 4 (by omega) t h
    · exact pace_step hu 2 (by omega) t h
  arr := by
    intro k hk _ i t h
    have : k = 0 ∨ k = 1 ∨ k = 2 := by
      have : k < 3 := hk
      omega
    rcases this with rfl | rfl | rfl
    · exact pace_step hu 2 (by omega) t h
    · exact pace_step hu 5 (by omega) t h
    · exact pace_step hu 5 (by omega) t h
  jit := fun i t h => pace_step hu 1 (by omega) t h

/-- In `rentNet` all agents are locked out after eleven events (C103), but `simulate(t=100)` ends. -/
example : (∃ fuel n', (rentAt 11).simulateT rentNet 100 fuel = some (.ok n') ∧ (rentAt 11).t + 100 ≤ n'.t) := by
  have ht : (rentAt 11).t < ⊤ := by decide +kernel
  obtain ⟨fuel, h | h⟩ := C114_simulate_ends rentNet_ok 100 (rentNet_pace (u := (rentAt 11).t + 100)
    (by
      generalize (rentAt 11).t = t at ht
      lift t to ℕ using ht.ne
      exact WithTop.coe_lt_top (t + 100 : ℕ))) (rentAt_reach 11) (by decide +kernel)
  · exact ⟨fuel, h⟩
  · exact absurd rentNet_loop h.1

/-- The other outcome: `simulate(t=20)` of the network of `C99_resource_loop_crash`. -/
example : (match (resLoopAt 0).simulateT resLoopNet 20 7 with
    | some (.error (.py e)) => decide (e = .typeError)
    | _ => false) = true := by decide +kernel

end NetSpec

end Verif
