import Verif.Props.Net1
import Verif.NetProj
import Verif.AnyFacts

/-! # Properties C44-C47 and C56 of networks -/

set_option linter.unusedSectionVars false
set_option linter.unusedVariables false

namespace Verif.NetSpec

variable {T R : Type*} [LinearOrder T] [OrderTop T] [Zero T] [LinearOrder R] [Add R]

theorem total_congr {N : NetCfg T R} {n n' : Net T R} (h : n'.numAgents = n.numAgents) :
    n'.total N = n.total N := by unfold Net.total; rw [h]

theorem total_update {N : NetCfg T R} {n n' : Net T R} {k : Nat} (hk : k < N.nE) {v : Int}
    (h : n'.numAgents = Function.update n.numAgents k v) :
    n'.total N + n.numAgents k = n.total N + v := by
  unfold Net.total; rw [h]; exact sum_update _ _ _ _ hk

theorem maxed_iff {N : NetCfg T R} {n : Net T R} {m : Int} (hm : N.maxAgents = .fin m) :
    n.maxed N = decide (m - 1 < n.total N) := by unfold Net.maxed; rw [hm]

theorem pySlice_length {α : Type*} (l : List α) {m : Int} (hm : 0 ≤ m) :
    ((Net.pySlice l m).length : Int) ≤ m := by
  unfold Net.pySlice
  rw [if_pos hm, List.length_take]
  omega

theorem truncate_length {N : NetCfg T R} {m : Int} (hm : N.maxAgents = .fin m) (h0 : 0 ≤ m) (l : List Nat) :
    ((Net.truncate N l).length : Int) ≤ m := by
  unfold Net.truncate
  rw [hm]
  simp only
  split
  · exact pySlice_length l h0
  · omega

/-- The loop in `initialize` adds at most one agent for each queue of the list. -/
theorem activate_total {N : NetCfg T R} (hN : N.Ok) {b : Nat → Bool} : ∀ (l : List Nat) (n n' : Net T R),
    (∀ k < N.nE, QGood (N.qc k) (b k) (n.qs k) ∧ n.numAgents k = (n.qs k).numTotal) →
    Net.activate N l n = .ok n' → n'.total N ≤ n.total N + l.length := by
  intro l
  induction l with
  | nil => intro n n' _ h; simp only [Net.activate, Except.ok.injEq] at h; rw [h]; simp
  | cons e es ih =>
    intro n n' hg h
    simp only [Net.activate] at h
    split at h
    · simp at h
    · rename_i he
      have he : e < N.nE := by omega
      obtain ⟨s', g1, g2, -, -, -, -, -, -, -, -, -, g3⟩ :=
        activate_one (hN.fwd e he) (hN.kinds e he) (hg e he).1
      rw [g1] at h
      simp only at h
      have h1 := ih _ _ (fun k hk => by
        by_cases hke : k = e
        · subst hke; simp [Net.setNum, Net.setQ, g2]
        · simpa [Net.setNum, Net.setQ, hke] using hg k hk) h
      have h2 := total_update (N := N) (n := n) (n' := (n.setQ e s').setNum e s'.numTotal) he
        (v := s'.numTotal) rfl
      have h3 := (hg e he).2
      simp only [List.length_cons]
      push_cast
      omega

theorem step_total {N : NetCfg T R} {b : Nat → Bool} {n n' : Net T R} (hi : NetInv N b n)
    (hs : StepOut N n n') {m M : Int} (hm : N.maxAgents = .fin m) (hM : m ≤ M) (hle : n.total N ≤ M) :
    n'.total N ≤ M := by
  cases hs with
  | empty _ h1 => rw [h1]; exact hle
  | idle _ _ _ _ _ _ _ _ _ h1 => rw [h1]; exact hle
  | arrive k s' h1 h2 h3 h4 h5 h6 h7 h8 h9 h10 =>
    have e1 := total_update h1 h9
    have e2 := hi.num k h1
    have e3 := h7.total
    obtain ⟨m1, m2, m3, m4, m5, m6⟩ := maybeInactive_same ((n.qs k).active && n.maxed N) (n.qs k)
    rw [m4, m5, m6] at e3
    have e4 := h7.lost.1
    rw [m6] at e4
    obtain ⟨c1, c2, c3⟩ := h7.count
    rw [m5] at c1 c2 c3
    by_cases hoff : ((n.qs k).active && n.maxed N) = true
    · have := c3 (by rw [hoff]; rfl)
      omega
    · by_cases hact : (n.qs k).active = true
      · rw [hact, maxed_iff hm] at hoff
        simp at hoff
        omega
      · have := c3 (by rw [if_neg hoff]; simpa using hact)
        omega
  | block k e a s1 d h1 h2 h3 h4 h5 h6 h7 h8 h9 h10 h11 h12 h13 h14 h15 =>
    rw [total_congr h14]; exact hle
  | move k e a s1 s2 d h1 h2 h3 h4 h5 h6 h7 h8 h9 h10 h11 h12 h13 h14 =>
    have e1 := total_update (N := N) (n := n)
      (n' := { n with numAgents := Function.update n.numAgents k s1.numTotal }) h1 rfl
    have e2 := total_update (N := N)
      (n := { n with numAgents := Function.update n.numAgents k s1.numTotal }) (n' := n') h3 h13
    have e3 := h10.spec.numTotal
    have e4 := hi.num k h1
    have e5 : Function.update n.numAgents k s1.numTotal e = (Function.update n.qs k s1 e).numTotal := by
      by_cases hke : e = k
      · subst hke; simp
      · simp [hke]; exact hi.num e h3
    simp only [e5] at e2
    cases h11 with
    | null q g1 g2 g3 g4 g5 =>
      have : s2.numTotal = (Function.update n.qs k s1 e).numTotal := by
        rw [g5, (maybeInactive_same _ _).2.2.2.1, g4]
      omega
    | queue g1 g2 =>
      obtain ⟨q, a1, a2, a3, a4, a5, a6, a7, a8, a9, a10, a11, a12, a13⟩ := g2.mid
      have e6 := a13.total
      obtain ⟨m1, m2, m3, m4, m5, m6⟩ := maybeInactive_same (stopAt N n k e s1.numTotal q) q
      rw [m4, m5, m6] at e6
      have e7 := a13.lost.1
      rw [m6] at e7
      obtain ⟨c1, c2, c3⟩ := a13.count
      rw [m5] at c1 c2 c3
      have e8 := total_update (N := N)
        (n := { n with numAgents := Function.update n.numAgents k s1.numTotal })
        (n' := { n with numAgents := Function.update (Function.update n.numAgents k s1.numTotal) e q.numTotal })
        h3 rfl
      simp only [e5] at e8
      by_cases hoff : stopAt N n k e s1.numTotal q = true
      · have := c3 (by rw [hoff]; rfl)
        omega
      · by_cases hact : q.active = true
        · rw [stopAt, hact, maxed_iff hm] at hoff
          simp at hoff
          omega
        · have := c3 (by rw [if_neg hoff]; simpa using hact)
          omega

theorem collect_numAgents (b : Bool) : ∀ (ks : List Nat) (n : Net T R),
    (n.collect b ks).numAgents = n.numAgents := by
  intro ks
  induction ks with
  | nil => intro n; rfl
  | cons k ks ih => intro n; exact ih _

theorem clearData_numAgents : ∀ (ks : List Nat) (n : Net T R), (n.clearData ks).numAgents = n.numAgents := by
  intro ks
  induction ks with
  | nil => intro n; rfl
  | cons k ks ih => intro n; exact ih _

theorem total_zero {N : NetCfg T R} {n : Net T R} (h : ∀ k < N.nE, n.numAgents k = 0) : n.total N = 0 := by
  unfold Net.total
  refine List.sum_eq_zero ?_
  intro x hx
  obtain ⟨k, hk, rfl⟩ := List.mem_map.mp hx
  exact h k (List.mem_range.mp hk)

/-- C44: one operation brings the number of agents scheduled, waiting or in service in the whole network to at most
`max_agents`, when that is not negative, or leaves it at most as it was; except that `initialize` of a running network
adds up to `max_agents` (see C109_max_agents_exceeded). -/
theorem C44_max_agents_step {N : NetCfg T R} (hN : N.Ok) {m : Int} (hm : N.maxAgents = .fin m) (h0 : 0 ≤ m)
    {b : Nat → Bool} {n1 n2 : Net T R} (hreach : NetReach N b n1) {op : NetOp R} (hal : op.Allowed N n1)
    (hr : op.run N n1 = .ok n2) :
    ((List.range N.nE).map n2.numAgents).sum ≤ max m ((List.range N.nE).map n1.numAgents).sum ∨
    ∃ pick a, op = .initialise pick a ∧ n1.initialized = true ∧
      ((List.range N.nE).map n2.numAgents).sum ≤ ((List.range N.nE).map n1.numAgents).sum + m := by
  change n2.total N ≤ max m (n1.total N) ∨ ∃ pick a, op = .initialise pick a ∧ n1.initialized = true ∧
    n2.total N ≤ n1.total N + m
  have hi := hreach.inv hN
  cases op with
  | step => exact .inl (step_total hi (step_of_simulate hN hreach hr).2 hm (le_max_left _ _) (le_max_right _ _))
  | initialise pick a =>
    simp only [NetOp.run, Net.initialise] at hr
    split at hr
    · simp at hr
    · split at hr
      · simp at hr
      · split at hr
        · simp at hr
        · rename_i l1 hl1 _
          split at hr
          · simp at hr
          · rename_i n3 h3
            split at hr
            · simp at hr
            · simp only [Except.ok.injEq] at hr
              subst hr
              have e1 := activate_total hN _ _ _ (fun k hk => ⟨hi.good k hk, hi.num k hk⟩) h3
              have e2 := truncate_length hm h0 l1
              have e4 : ∀ x : PQ T, ({ n3 with heap := x, initialized := true } : Net T R).total N =
                n3.total N := fun _ => rfl
              rw [e4]
              cases hf : n1.initialized with
              | true => exact .inr ⟨pick, a, rfl, rfl, by omega⟩
              | false =>
                have e3 : n1.total N = 0 := by
                  refine total_zero fun k hk => ?_
                  rw [hi.num k hk]; exact ((hi.fresh hf).2.2 k hk).1
                left
                omega
  | clear =>
    simp only [NetOp.run, Except.ok.injEq] at hr
    subst hr
    have : (n1.clear N).total N = 0 := total_zero fun _ _ => rfl
    left
    omega
  | collect x ks =>
    simp only [NetOp.run, Except.ok.injEq] at hr
    subst hr
    rw [total_congr (collect_numAgents x ks n1)]; exact .inl (le_max_right _ _)
  | clearData ks =>
    simp only [NetOp.run, Except.ok.injEq] at hr
    subst hr
    rw [total_congr (clearData_numAgents ks n1)]; exact .inl (le_max_right _ _)
  | setProbs p =>
    simp only [NetOp.run, Except.ok.injEq] at hr
    subst hr; exact .inl (le_max_right _ _)
  | setBlocking x =>
    simp only [NetOp.run, Except.ok.injEq] at hr
    subst hr; exact .inl (le_max_right _ _)
  | copy =>
    obtain ⟨h', g1, -⟩ := hi.copy hN
    simp only [NetOp.run, g1, Except.ok.injEq] at hr
    subst hr; exact .inl (le_max_right _ _)
  | setServers k m =>
    simp only [NetOp.run, Except.ok.injEq] at hr
    subst hr; exact .inl (le_max_right _ _)
  | setInactive k =>
    simp only [NetOp.run, Except.ok.injEq] at hr
    subst hr; exact .inl (le_max_right _ _)

/-- C44: the number of agents scheduled, waiting or in service in the whole network never exceeds `max_agents`, when
that is not negative, in histories that call `initialize` only on new or cleared networks. -/
theorem C44_max_agents {N : NetCfg T R} (hN : N.Ok) {m : Int} (hm : N.maxAgents = .fin m) (h0 : 0 ≤ m)
    {b : Nat → Bool} {n : Net T R}
    (hist : NetHist N b (fun n op => ∀ pick a, op = .initialise pick a → n.initialized = false) n) :
    ((List.range N.nE).map n.numAgents).sum ≤ m ∧ ((everyone N n.qs).length : Int) ≤ m := by
  have h := hist.reach
  have key : n.total N ≤ m := by
    clear h
    induction hist with
    | new bas probs hp =>
      have : (Net.init N b bas probs).total N = 0 := total_zero fun _ _ => rfl
      omega
    | step op hh hal hok hr ih =>
      rcases C44_max_agents_step hN hm h0 hh.reach hal hr with h1 | ⟨pick, a, h1, h2, -⟩
      · exact h1.trans (max_le le_rfl ih)
      · exact absurd (hok pick a h1) (by simp [h2])
  refine ⟨key, ?_⟩
  have hi := h.inv hN
  have hlen : ((everyone N n.qs).length : Int) = n.total N := by
    unfold everyone Net.total
    rw [List.length_flatMap]
    push_cast
    congr 1
    rw [List.map_map]
    refine List.map_congr_left fun k hk => ?_
    have hk := List.mem_range.mp hk
    rw [C42_num_agents hN h hk]
    simp [presentIds, Function.comp]
    try omega
  rw [hlen]; exact key

/-- A list of operations that `ok` allows in every state. -/
theorem NetHist.ofOps {N : NetCfg T R} {b : Nat → Bool} {ok : Net T R → NetOp R → Prop} {n n' : Net T R}
    (ops : List (NetOp R)) (hok : ∀ op ∈ ops, ∀ n, ok n op) (h : NetHist N b ok n) (hr : runNet N n ops = some n') :
    NetHist N b ok n' := by
  induction ops generalizing n with
  | nil => simp only [runNet, Option.some.injEq] at hr; exact hr ▸ h
  | cons op ops ih =>
    simp only [runNet] at hr
    split at hr
    · rename_i hc
      split at hr
      · simp at hr
      · rename_i n1 h1
        exact ih (fun o ho => hok o (by simp [ho]))
          (h.step op (NetOp.allowed_of_check hc) (hok op (by simp) n) h1) hr
    · simp at hr

theorem demoAt_once (m : Nat) :
    NetHist demoNet (fun _ => true) (fun n op => ∀ pick a, op = .initialise pick a → n.initialized = false) (demoAt m) := by
  have h0 : NetHist demoNet (fun _ => true) (fun n op => ∀ pick a, op = .initialise pick a → n.initialized = false)
      (Net.init demoNet (fun _ => true) true demoProbs) := .new true demoProbs demoProbs_ok
  unfold demoAt resNet
  cases h : runNet demoNet (Net.init demoNet (fun _ => true) true demoProbs) (demoRun m) with
  | none => exact h0
  | some n' =>
    rw [demoRun, runNet] at h
    split at h
    · rename_i hc
      split at h
      · simp at h
      · rename_i n1 h1
        refine NetHist.ofOps _ (fun op ho n pick a he => ?_)
          (h0.step _ (NetOp.allowed_of_check hc) (fun _ _ _ => rfl) h1) h
        rw [List.eq_of_mem_replicate ho] at he
        simp at he
    · simp at h

/-- `max_agents` is 6 and is reached. -/
example : NetHist demoNet (fun _ => true) (fun n op => ∀ pick a, op = .initialise pick a → n.initialized = false) (demoAt 10) :=
  demoAt_once 10

example : demoNet.maxAgents = .fin 6 ∧ (everyone demoNet (demoAt 10).qs).length = 6 := by decide +kernel

/-! ## C45, C56: idle events and the clock -/

/-- Nothing but the scheduler and the number of events differs. -/
structure Same (n n' : Net T R) : Prop where
  qs : n'.qs = n.qs
  num : n'.numAgents = n.numAgents
  t : n'.t = n.t
  init : n'.initialized = n.initialized
  bas : n'.bas = n.bas
  probs : n'.probs = n.probs
  unif : n'.unifCalls = n.unifCalls
  jit : n'.jitCalls = n.jitCalls

theorem pop_shrinks {N : NetCfg T R} {b : Nat → Bool} {n : Net T R} (hi : NetInv N b n) (hs : n.heap.size ≠ 0)
    {h : PQ T} {p : T × Nat} (hp : n.heap.pop = some (h, some p)) : h.size < n.heap.size := by
  have hI : n.heap.Inv N.nE := hi.heap.resolve_right hs
  obtain ⟨h', res, g1, g2, g3, g4⟩ := PQ.pop_spec hI (by omega)
  rw [g1] at hp
  simp only [Option.some.injEq, Prod.mk.injEq] at hp
  obtain ⟨rfl, rfl⟩ := hp
  obtain ⟨x, k⟩ := p
  obtain ⟨e1, stale, e2, e3, e4⟩ := g4
  have := e3.length_eq
  rw [PQ.stored_length hI, List.length_append, List.length_cons, PQ.stored_length g2] at this
  omega

theorem nonempty_of_event {N : NetCfg T R} {b : Nat → Bool} {n : Net T R} (hi : NetInv N b n)
    (h : ∃ k < N.nE, (n.qs k).time < ⊤) : n.heap.size ≠ 0 := by
  obtain ⟨k, hk, ht⟩ := h
  intro h0
  have := ((hi.node k hk (by simp)).1 ht).2
  rw [PQ.stored_nil h0] at this
  simp at this

/-- C45, the part that holds: as long as some queue has an event ahead, `simulate(n=1)` either performs
an event (an arrival, a move or a blocking) and counts it, or does nothing at all except counting an event; the
second can happen only finitely often in a row since the schedule gets shorter. Missing: that every call
performs an event, which is false (`C45_idle_event`). -/
theorem C45_events_partial {N : NetCfg T R} (hN : N.Ok) {b : Nat → Bool} {n n' : Net T R}
    (h : NetReach N b n) (hr : n.simulate N 1 = .ok n') (hev : ∃ k < N.nE, (n.qs k).time < ⊤) :
    n'.numEvents = n.numEvents + 1 ∧
    ((∃ k < N.nE, ∃ a, Event N n n' k a ∧ n'.t = a.time) ∨ (Same n n' ∧ n'.heap.size < n.heap.size)) := by
  have hi := h.inv hN
  obtain ⟨-, hs⟩ := step_of_simulate hN h hr
  have hne := nonempty_of_event hi hev
  cases hs with
  | empty h0 h1 => exact absurd h0 hne
  | idle k x hp h1 h2 h3 h4 h5 h6 h7 =>
    have hx : x = n.t := by
      rcases h4 with h4 | h4
      · exact h4
      · obtain ⟨j, hj, ht⟩ := hev
        exact absurd (h5 j hj) (by rw [h4, top_le_iff]; exact ht.ne)
    subst hx
    refine ⟨by rw [h7], .inr ⟨by rw [h7]; exact ⟨rfl, rfl, rfl, rfl, rfl, rfl, rfl, rfl⟩, ?_⟩⟩
    rw [h7]; exact pop_shrinks hi hne h6
  | arrive k s' h1 h2 h3 h4 h5 h6 h7 h8 h9 h10 h11 h12 h13 =>
    refine ⟨h13.events, .inl ?_⟩
    rcases C39_events_in_time_order hN h hr with hq | ⟨k, hk, a, g1, g2, g3, -⟩
    · exfalso
      have hc := h7.cur
      obtain ⟨m1, m2, m3, m4, m5, m6⟩ := maybeInactive_same ((n.qs k).active && n.maxed N) (n.qs k)
      have hlt : headTime (n.qs k).arrivals < ⊤ := by
        by_contra hc
        rw [nextEventDescription, if_neg h3.ne_null, if_neg hc] at h6
        split at h6 <;> exact absurd h6 (by decide)
      have hk : s' = n.qs k := by
        have := congrFun hq k; rw [h8, Function.update_self] at this; exact this
      cases h7.out with
      | idle g _ _ => rw [m1] at g; rw [g] at hlt; exact lt_irrefl _ hlt
      | arr a rest _ _ _ e _ =>
        have := e.numArrivals
        rw [hk] at this
        have h' : (if ((n.qs k).active && n.maxed N) = true then setInactive (n.qs k) else n.qs k).numArrivals =
          (n.qs k).numArrivals := by split <;> rfl
        rw [h'] at this; omega
      | block a rest _ _ _ _ e _ =>
        have := e.numBlocked
        rw [hk] at this
        have h' : (if ((n.qs k).active && n.maxed N) = true then setInactive (n.qs k) else n.qs k).numBlocked =
          (n.qs k).numBlocked := by split <;> rfl
        rw [h'] at this; omega
    · exact ⟨k, hk, a, g1, g3⟩
  | block k e a s1 d h1 h2 h3 h4 h5 h6 h7 h8 h9 h10 h11 h12 h13 h14 h15 h16 h17 h18 =>
    refine ⟨h18.events, .inl ?_⟩
    rcases C39_events_in_time_order hN h hr with hq | ⟨k, hk, a, g1, g2, g3, -⟩
    · exfalso
      have := congrArg QS.numBlocked (congrFun hq e)
      rw [h13, Function.update_of_ne (Ne.symm h4), Function.update_self] at this
      simp at this
    · exact ⟨k, hk, a, g1, g3⟩
  | move k e a s1 s2 d h1 h2 h3 h4 h5 h6 h7 h8 h9 h10 h11 h12 h13 h14 h15 h16 h17 =>
    refine ⟨h17.events, .inl ?_⟩
    rcases C39_events_in_time_order hN h hr with hq | ⟨k, hk, a, g1, g2, g3, -⟩
    · exfalso
      have e1 := h10.spec.numDepartures
      have := congrArg QS.numDepartures (congrFun hq k)
      by_cases hke : k = e
      · subst hke
        rw [h12, Function.update_self] at this
        cases h11 with
        | null q g1 => exact absurd g1 h4.ne_null
        | queue g1 g2 =>
          rw [RecvEff.numDepartures g2, Function.update_self] at this
          omega
      · rw [h12, Function.update_of_ne hke, Function.update_self] at this
        omega
    · exact ⟨k, hk, a, g1, g3⟩

/-- C45, the part that holds, second half: an event does take place within as many calls as there are
entries in the schedule, at the next event time. -/
theorem C45_progress_partial {N : NetCfg T R} (hN : N.Ok) (hF : N.NoInf) {b : Nat → Bool} : ∀ {n : Net T R},
    NetReach N b n → n.initialized = true → (∃ k < N.nE, (n.qs k).time < ⊤) →
    ∃ j < n.heap.size, ∃ n1 n2, n.simulate N j = .ok n1 ∧ Same n n1 ∧ NetReach N b n1 ∧
      n1.simulate N 1 = .ok n2 ∧ ∃ k < N.nE, ∃ a, Event N n1 n2 k a ∧ n2.t = a.time ∧
        ∀ j < N.nE, a.time ≤ (n.qs j).time := by
  intro n
  induction hsz : n.heap.size using Nat.strong_induction_on generalizing n with
  | _ sz ih =>
    intro h hinit hev
    subst hsz
    have hne := nonempty_of_event (h.inv hN) hev
    obtain ⟨n', hr, hreach, hinit'⟩ := C41_never_crashes hN hF h hinit 1
    rcases (C45_events_partial hN h hr hev).2 with ⟨k, hk, a, g1, g2⟩ | ⟨hsame, hlt⟩
    · refine ⟨0, by omega, n, n', by simp [Net.simulate, Net.steps, hinit],
        ⟨rfl, rfl, rfl, rfl, rfl, rfl, rfl, rfl⟩, h, hr, k, hk, a, g1, g2, ?_⟩
      rcases C39_events_in_time_order hN h hr with hq | ⟨k', hk', a', q1, q2, q3, q4⟩
      · have ht : n'.t = n.t ∨ ∀ j < N.nE, n'.t ≤ (n.qs j).time := by
          obtain ⟨-, hs⟩ := step_of_simulate hN h hr
          cases hs with
          | empty h0 _ => exact absurd h0 hne
          | idle k x hp h1 h2 h3 h4 h5 h6 h7 => right; rw [h7]; exact h5
          | arrive k s' h1 h2 h3 h4 h5 h6 h7 h8 h9 h10 => right; rw [h10]; exact h5
          | block k e a s1 d h1 h2 h3 h4 h5 h6 h7 h8 h9 h10 h11 h12 h13 h14 h15 => right; rw [h15]; exact h7
          | move k e a s1 s2 d h1 h2 h3 h4 h5 h6 h7 h8 h9 h10 h11 h12 h13 h14 => right; rw [h14]; exact h6
        intro j hj
        rw [← g2]
        rcases ht with ht | ht
        · rw [ht]; exact (h.inv hN).tau j hj
        · exact ht j hj
      · intro j hj
        rw [← g2, q3]; exact (q4 j hj).1
    · obtain ⟨j, hj, n1, n2, q1, q2, q3, q4, k, hk, a, q5, q6, q7⟩ := ih _ hlt rfl hreach hinit'
        (by rw [hsame.qs]; exact hev)
      refine ⟨j + 1, by omega, n1, n2, ?_, ⟨q2.qs.trans hsame.qs, q2.num.trans hsame.num, q2.t.trans hsame.t,
        q2.init.trans hsame.init, q2.bas.trans hsame.bas, q2.probs.trans hsame.probs,
        q2.unif.trans hsame.unif, q2.jit.trans hsame.jit⟩, q3, q4, k, hk, a, q5, q6, ?_⟩
      · rw [simulate_one, if_pos hinit] at hr
        rw [Net.simulate, if_pos hinit'] at q1
        rw [Net.simulate, if_pos hinit, Net.steps, hr]
        exact q1
      · rw [← hsame.qs]; exact q7

example : demoNet.NoInf ∧ (demoAt 3).initialized = true ∧ ((demoAt 3).qs 0).time < ⊤ :=
  ⟨demoNet_noInf, by decide +kernel, by decide +kernel⟩

/-- Queue 1 leads into queue 0, which has two servers, a long first and a short second service. Queue 1 has
no outside arrivals from time `d` on. -/
def dupNet (d : ℕ∞) : NetCfg ℕ∞ Nat where
  nE := 3
  qc k := match k with
    | 0 => { demoQ .server 1 2 0 1 1 1 .inf with
        servers := .fin 2, serviceF := fun i t => if i = 0 then t + 8 else t + 1 }
    | 1 => { demoQ .server 0 1 1 1 4 1 .inf with deactiveT := d }
    | _ => demoQ .null 2 2 k 0 1 1 .inf
  outEdges v := match v with
    | 0 => [1]
    | 1 => [0]
    | _ => [2]
  maxAgents := .inf
  unif _ := 0
  jit _ t := t
  garbage _ _ := (0, 0)

theorem dupNet_ok (d : ℕ∞) : (dupNet d).Ok := by
  have hk : ∀ k, k < 3 → k = 0 ∨ k = 1 ∨ k = 2 := by omega
  refine ⟨fun k h => ?_, fun k h => ?_, fun k h => ?_, fun k h hs => ?_, fun k h hs => ?_, fun _ _ => le_rfl⟩ <;>
    rcases hk k h with rfl | rfl | rfl
  · rfl
  · rfl
  · rfl
  · exact .inl (.inl rfl)
  · exact .inl (.inl rfl)
  · exact .inr rfl
  · refine ⟨fun n t => le_self_add, fun n t => ?_⟩
    simp only [dupNet]
    split <;> exact le_self_add
  · exact ⟨fun n t => le_self_add, fun n t => le_self_add⟩
  · exact ⟨fun n t => le_self_add, fun n t => le_self_add⟩
  · simp [dupNet, demoQ]
  · simp [dupNet, demoQ]
  · simp [dupNet, demoQ]
  · simp [dupNet, demoQ]
  · simp [dupNet, demoQ]
  · simp [dupNet, demoQ]

/-- Initialise queue 1 and simulate `m` events. -/
def dupRun (m : Nat) : List (NetOp Nat) :=
  .initialise (fun l _ => l) (.queues [1]) :: List.replicate m .step

/-- State of `dupNet` after `m` events. -/
def dupAt (d : ℕ∞) (m : Nat) : Net ℕ∞ Nat :=
  resNet (dupNet d) (fun _ => true) true (fun v => List.replicate ((dupNet d).outEdges v).length 1) (dupRun m)

theorem dupAt_reach (d : ℕ∞) (m : Nat) : NetReach (dupNet d) (fun _ => true) (dupAt d m) :=
  reachNet _ _ _ _ _ (fun _ => List.length_replicate)

theorem dupAt_step (d : ℕ∞) (m : Nat)
    (h : (runNet (dupNet d) (Net.init (dupNet d) (fun _ => true) true
      (fun v => List.replicate ((dupNet d).outEdges v).length 1)) (dupRun m ++ [.step])).isSome = true) :
    (dupAt d m).simulate (dupNet d) 1 = .ok (dupAt d (m + 1)) := by
  rw [dupAt, dupAt, dupRun, dupRun, List.replicate_succ']
  exact resNet_step h

/-- What can be seen of queue `k`: number in system, total, arrivals, departures, blocked, next event. -/
def look (n : Net ℕ∞ Nat) (k : Nat) : List ℕ∞ :=
  [(n.qs k).numSystem.toNat, (n.qs k).numTotal.toNat, (n.qs k).numArrivals, (n.qs k).numDepartures,
    (n.qs k).numBlocked, (n.qs k).time]

/-- C45 as stated is false (F1): queue 1 has an event ahead, but `simulate(n=1)` performs none and counts
one. -/
theorem C45_idle_event : (dupNet 13).Ok ∧ NetReach (dupNet 13) (fun _ => true) (dupAt 13 7) ∧
    (dupAt 13 7).simulate (dupNet 13) 1 = .ok (dupAt 13 8) ∧ ((dupAt 13 7).qs 1).time = 13 ∧
    (dupAt 13 7).numEvents = 7 ∧ (dupAt 13 8).numEvents = 8 ∧
    ∀ k < 3, look (dupAt 13 7) k = look (dupAt 13 8) k :=
  ⟨dupNet_ok 13, dupAt_reach 13 7, dupAt_step 13 7 (by decide +kernel), by decide +kernel, by decide +kernel,
    by decide +kernel, by decide +kernel⟩

theorem root_le {m : Nat} {pq : PQ T} (h : pq.Inv m) {p : T × Nat} (hp : pq.arr[0]? = some p) :
    ∀ q ∈ pq.stored, p.1 ≤ q.1 := by
  intro q hq
  obtain ⟨i, hi, rfl⟩ := List.mem_iff_getElem.mp hq
  have hl := h.len
  have hsz := h.size_le
  simp only [PQ.stored, List.length_take] at hi
  refine HeapFrom.root_le h.heap i (by omega) (by omega) _ _ hp ?_
  simp [PQ.stored]

/-- C46, the part that holds: `time` is always the next event time of some queue or infinite, hence never
too early; it is infinite if the schedule is empty, and then rightly so; and it is the least of the queues' next
event times if the first entry of the schedule is not left over from an earlier event. Missing: the case of
a left-over entry, where it is wrong (`C46_time_wrong`). -/
theorem C46_time_partial {N : NetCfg T R} (hN : N.OkA) {b : Nat → Bool} {n : Net T R} (h : NetReach N b n) :
    ∃ x, n.time = some x ∧ (x = ⊤ ∨ ∃ k < N.nE, x = (n.qs k).time) ∧
      (n.heap.size = 0 → x = ⊤ ∧ ∀ k < N.nE, (n.qs k).time = ⊤) ∧
      ∀ p, n.heap.stored.head? = some p → p.1 = (n.qs p.2).time →
        x = p.1 ∧ ∀ k < N.nE, x ≤ (n.qs k).time := by
  have hi := h.invA hN
  unfold Net.time
  by_cases h0 : n.heap.size = 0
  · rw [if_neg (by omega)]
    refine ⟨⊤, rfl, .inl rfl, fun _ => ⟨rfl, fun k hk => ?_⟩, fun p hp => ?_⟩
    · by_contra hc
      exact nonempty_of_eventA hi ⟨k, hk, lt_top_iff_ne_top.mpr hc⟩ h0
    · rw [PQ.stored_nil h0] at hp; simp at hp
  · rw [if_pos (by omega)]
    have hI : n.heap.Inv N.nE := hi.heap.resolve_right h0
    have hlen : 0 < n.heap.arr.length := by have := hI.size_le; have := hI.len; omega
    obtain ⟨p, hp⟩ : ∃ p, n.heap.arr[0]? = some p := ⟨_, List.getElem?_eq_getElem hlen⟩
    have hst : n.heap.stored.head? = some p := by
      unfold PQ.stored
      rw [List.head?_take, if_neg h0, List.head?_eq_getElem?]; exact hp
    rw [hp]
    have hmem : p ∈ n.heap.stored := List.mem_of_mem_head? hst
    refine ⟨_, rfl, .inr ⟨p.2, hI.nodes p hmem, rfl⟩, fun h' => absurd h' h0, ?_⟩
    intro p' hp' heq
    rw [hst] at hp'
    simp only [Option.some.injEq] at hp'
    subst hp'
    refine ⟨heq.symm, fun k hk => ?_⟩
    by_cases ht : (n.qs k).time < ⊤
    · have hk' := ((hi.node k hk (by simp)).1 ht).2
      rw [← heq]
      exact root_le hI hp _ hk'
    · rw [not_lt_top_iff.mp ht]; exact le_top

example : (demoAt 4).time = some 5 ∧ (demoAt 4).heap.stored.head? = some (5, 0) ∧ ((demoAt 4).qs 0).time = 5 := by
  decide +kernel

/-- C46 as stated is false: queue 1 has an event at time 13 but `time` is infinite. -/
theorem C46_time_wrong : (dupNet 13).Ok ∧ NetReach (dupNet 13) (fun _ => true) (dupAt 13 7) ∧
    ((dupAt 13 7).qs 1).time = 13 ∧ (dupAt 13 7).time = some ⊤ :=
  ⟨dupNet_ok 13, dupAt_reach 13 7, by decide +kernel, by decide +kernel⟩

theorem leastKey_spec {N : NetCfg T R} (hN : N.OkA) (n : Net T R) : ∀ m, m ≤ N.nE → 0 < m →
    ∃ k < m, Net.leastKey N n m = some ((n.qs k).time, k) ∧ ∀ j < m, (n.qs k).time ≤ (n.qs j).time := by
  intro m
  induction m with
  | zero => intro _ h; omega
  | succ m ih =>
    intro hm _
    simp only [Net.leastKey]
    rw [hN.idx m (by omega)]
    by_cases h0 : m = 0
    · subst h0
      refine ⟨0, by omega, by simp [Net.leastKey], fun j hj => ?_⟩
      have : j = 0 := by omega
      rw [this]
    · obtain ⟨k, hk, g1, g2⟩ := ih (by omega) (by omega)
      rw [g1]
      simp only
      split
      · rename_i hlt
        refine ⟨m, by omega, rfl, fun j hj => ?_⟩
        have hle : (n.qs m).time ≤ (n.qs k).time := by
          rcases hlt with hlt | hlt
          · exact hlt.le
          · exact hlt.1.le
        rcases Nat.lt_or_ge j m with hj' | hj'
        · exact hle.trans (g2 j hj')
        · have : j = m := by omega
          rw [this]
      · rename_i hlt
        refine ⟨k, by omega, rfl, fun j hj => ?_⟩
        rcases Nat.lt_or_ge j m with hj' | hj'
        · exact g2 j hj'
        · have : j = m := by omega
          rw [this]
          by_contra hc
          exact hlt (.inl (not_le.mp hc))

/-- C47, the part that holds: while some queue has an event ahead, `next_event_description` names a queue whose
next event time is minimal, and says 'Arrival' if an arrival is next there (first scheduled arrival not
after the first departure) and 'Departure' otherwise; and it says 'Nothing' only if no queue has an event
ahead. Missing: that it says 'Nothing' whenever no queue has an event ahead, which is false
(`C47_departure_of_nobody`). -/
theorem C47_description_partial {N : NetCfg T R} (hN : N.OkA) {b : Nat → Bool} {n : Net T R}
    (h : NetReach N b n) :
    ((∃ k < N.nE, (n.qs k).time < ⊤) → ∃ e < N.nE, (∀ j < N.nE, (n.qs e).time ≤ (n.qs j).time) ∧
      (n.qs e).time < ⊤ ∧
      ((n.description N = some (.arrival e) ∧ headTime (n.qs e).arrivals = (n.qs e).time) ∨
        (n.description N = some (.departure e) ∧ headTime (n.qs e).departures = (n.qs e).time ∧
          (n.qs e).time < headTime (n.qs e).arrivals))) ∧
    (n.description N = some .nothing → ∀ k < N.nE, (n.qs k).time = ⊤) := by
  have hi := h.invA hN
  refine ⟨?_, ?_⟩
  · intro hev
    have hne := nonempty_of_eventA hi hev
    obtain ⟨k, hk, ht⟩ := hev
    obtain ⟨e, he, g1, g2⟩ := leastKey_spec hN n N.nE le_rfl (by omega)
    have hlt : (n.qs e).time < ⊤ := (g2 k hk).trans_lt ht
    refine ⟨e, he, g2, hlt, ?_⟩
    unfold Net.description
    rw [if_neg hne, g1]
    simp only [if_neg (not_le.mpr he), hN.idx e he]
    rcases desc_casesA (hi.good e he) with ⟨-, h2⟩ | ⟨h1, -, -, -, h2, -⟩ | ⟨h1, -, -, -, h2, h3⟩
    · rw [h2] at hlt; exact absurd hlt (lt_irrefl _)
    · left; rw [h1]; exact ⟨rfl, h2.symm⟩
    · right; rw [h1]; exact ⟨rfl, h2.symm, by rw [h2]; exact h3⟩
  · intro hd k hk
    by_contra hc
    have hne := nonempty_of_eventA hi ⟨k, hk, lt_top_iff_ne_top.mpr hc⟩
    unfold Net.description at hd
    rw [if_neg hne] at hd
    split at hd
    · simp at hd
    · split at hd
      · simp at hd
      · split at hd <;> simp at hd

example : (demoAt 0).description demoNet = some (.arrival 0) ∧
    (demoAt 1).description demoNet = some (.departure 0) ∧ ((demoAt 1).qs 0).time = 3 := by decide +kernel

/-- C47 as stated is false: nobody is left in the network, but a departure is announced. -/
theorem C47_departure_of_nobody : (dupNet 12).Ok ∧ NetReach (dupNet 12) (fun _ => true) (dupAt 12 6) ∧
    everyone (dupNet 12) (dupAt 12 6).qs = [] ∧
    (dupAt 12 6).description (dupNet 12) = some (.departure 0) :=
  ⟨dupNet_ok 12, dupAt_reach 12 6, by decide +kernel, by decide +kernel⟩

/-- C56, the part that holds: as long as some queue has an event ahead, `simulate(n=1)` leaves
`current_time` finite and not after that event. Missing: that `current_time` stays when nothing is left to
happen, which is false (`C56_infinite_clock`). -/
theorem C56_finite_clock_partial {N : NetCfg T R} (hN : N.OkA) {b : Nat → Bool} {n n' : Net T R}
    (h : NetReach N b n) (hr : n.simulate N 1 = .ok n') {k : Nat} (hk : k < N.nE) (ht : (n.qs k).time < ⊤) :
    n'.t < ⊤ ∧ n'.t ≤ (n.qs k).time := by
  have hi := h.invA hN
  have : n'.t ≤ (n.qs k).time := by
    obtain ⟨-, hs⟩ := step_of_simulateA hN h hr
    cases hs with
    | empty h0 _ => exact absurd h0 (nonempty_of_eventA hi ⟨k, hk, ht⟩)
    | idle k x hp h1 h2 h3 h4 h5 h6 h7 => rw [h7]; exact h5 _ hk
    | arrive k s' h1 h2 h3 h4 h5 h6 h7 h8 h9 h10 => rw [h10]; exact h5 _ hk
    | block k e a s1 d h1 h2 h3 h4 h5 h6 h7 h8 h9 h10 h11 h12 h13 h14 h15 => rw [h15]; exact h7 _ hk
    | move k e a a' s1 s2 d h1 h2 h3 h4 h5 h6 h7 h8 h9 h10 h11 h12 h13 h14 => rw [h14]; exact h6 _ hk
  exact ⟨this.trans_lt ht, this⟩

/-- C56 as stated is false: with nothing left to simulate `current_time` becomes infinite. -/
theorem C56_infinite_clock : (dupNet 12).Ok ∧ NetReach (dupNet 12) (fun _ => true) (dupAt 12 7) ∧
    (dupAt 12 7).t = 13 ∧ (dupAt 12 7).simulate (dupNet 12) 1 = .ok (dupAt 12 8) ∧ (dupAt 12 8).t = ⊤ :=
  ⟨dupNet_ok 12, dupAt_reach 12 7, by decide +kernel, dupAt_step 12 7 (by decide +kernel), by decide +kernel⟩

end Verif.NetSpec
