import Verif.Props.AnyNet
import Verif.Props.Net3

/-!
# Property C103: agents that are held back for ever; a network that meets the hypotheses of C98-C101

For networks with queues of every class (`N.OkA`).
-/

set_option linter.unusedSectionVars false
set_option linter.unusedVariables false

namespace Verif.NetSpec

open ResourceSpec

variable {T R : Type*} [LinearOrder T] [OrderTop T] [Zero T] [LinearOrder R] [Add R]

theorem heldBackA {N : NetCfg T R} {b : Nat → Bool} {n n' : Net T R} (hi : NetInvA N b n) {k e : Nat}
    {a : Agent T} {s1 : QS T} (h1 : k < N.nE) (h4 : k ≠ e) (h5 : (N.qc k).kind ≠ .null)
    (h8 : nextEventDescription (N.qc k) (n.qs k) = 2)
    (h12 : DelayEff (N.qc k) (n.qs k) s1
        (if n.bas then some (N.jit n.jitCalls (headTime (n.qs e).departures)) else none) a)
    (h13 : n'.qs = Function.update (Function.update n.qs e
        { n.qs e with numBlocked := (n.qs e).numBlocked + 1 }) k s1)
    (h14 : n'.numAgents = n.numAgents) (h15 : n'.t = (n.qs k).time) :
    HeldBack N n n' k e a (retry N n k e a) := by
  have e2 : n'.qs k = s1 := by rw [h13, Function.update_self]
  have ga : a.time = (n.qs k).time := by
    have hlt : headTime (n.qs k).departures < headTime (n.qs k).arrivals := by
      by_contra hc
      rw [nextEventDescription, if_neg h5, if_neg hc] at h8
      split at h8 <;> simp at h8
    have := (hi.good k h1).base.time
    rw [this, nextTime, min_eq_right hlt.le]
    have hh := h12.head
    cases hd : (n.qs k).departures with
    | nil => rw [hd] at hh; simp at hh
    | cons x l => rw [hd] at hh; simp at hh; subst hh; rfl
  obtain ⟨rest, g1, g2⟩ := h12.deps
  obtain ⟨q1, q2, q3, q4, q5, q6, q7, q8, q9, q10, q11⟩ := h12.same
  refine ⟨h12.head, by rw [h13, Function.update_of_ne (Ne.symm h4), Function.update_self],
    fun j j1 j2 => by rw [h13, Function.update_of_ne j1, Function.update_of_ne j2], ⟨rest, g1, ?_⟩,
    ?_, h14, by rw [h15, ga]⟩
  · rw [e2]
    unfold retry
    cases hb : n.bas with
    | true => simpa [hb] using g2
    | false => simpa [hb] using g2
  · rw [e2]
    exact ⟨q1, q2, q4, q5, DelayEff.numDep h12, q8, q7, q11⟩

/-- C103, blocking in networks with queues of every class: suppose that the next event of queue `k` is the departure
of agent `a`, which wants to go to queue `e`, a LossQueue or ResourceQueue at capacity different from `k`, and no
other queue has an event that early. Then the next event holds `a` back, whether or not it carries a resource that it
would only leave there. (The other possibility is an event of the scheduler in which nothing happens.) -/
theorem C103_held_back {N : NetCfg T R} (hN : N.OkA) {b : Nat → Bool} {n n' : Net T R}
    (h : NetReach N b n) (hr : n.simulate N 1 = .ok n') {k e d : Nat} (hk : k < N.nE) (hke : k ≠ e)
    (hmin : ∀ j < N.nE, j ≠ k → (n.qs k).time < (n.qs j).time) {a : Agent T}
    (hdep : headTime (n.qs k).departures < headTime (n.qs k).arrivals)
    (ha : (n.qs k).departures.head? = some (.agent a)) (hdest : n.destination N k a = .ok (e, d))
    (hfull : ((N.qc e).kind = .loss ∨ (N.qc e).kind = .resource) ∧
      ∃ s m : Int, (n.qs e).numServers = .fin s ∧ (N.qc e).buffer = .fin m ∧ s + m ≤ (n.qs e).numSystem) :
    HeldBack N n n' k e a (retry N n k e a) ∨ Same n n' := by
  have hi := h.invA hN
  have hs : (N.qc k).kind ≠ .null := by
    rcases hi.good k hk with hg | hg
    · exact hg.1
    · rw [hg.2.2.2.2.2.2] at hdep; simp [headTime, Slot.time] at hdep
  have hdesc : nextEventDescription (N.qc k) (n.qs k) = 2 := by
    rw [nextEventDescription, if_neg hs, if_pos hdep]
  have hcap : atCapacity (N.qc e) (n.qs e) = true := by
    obtain ⟨g1, s, m, g2, g3, g4⟩ := hfull
    unfold atCapacity
    rcases g1 with g1 | g1 <;> rw [g1, g2, g3] <;> simpa [Cap.add, Cap.lt] using g4
  have hlt : (n.qs k).time < ⊤ := by
    rw [(hi.good k hk).base.time, nextTime]
    exact (min_le_right _ _).trans_lt (hdep.trans_le le_top)
  have huniq : ∀ j < N.nE, (∀ i < N.nE, (n.qs j).time ≤ (n.qs i).time) → j = k := by
    intro j hj hle
    by_contra hne
    exact absurd (hle k hk) (not_le.mpr (hmin j hj hne))
  obtain ⟨-, hst⟩ := step_of_simulateA hN h hr
  cases hst with
  | empty h0 _ =>
    have := ((hi.node k hk (by simp)).1 hlt).2
    rw [PQ.stored_nil h0] at this
    simp at this
  | idle k' x hp h1 h2 h3 h4 h5 h6 h7 =>
    right
    have hx : x = n.t := by
      rcases h4 with h4 | h4
      · exact h4
      · exact absurd (h5 k hk) (by rw [h4, top_le_iff]; exact hlt.ne)
    subst hx
    rw [h7]; exact ⟨rfl, rfl, rfl, rfl, rfl, rfl, rfl, rfl⟩
  | arrive k' s' h1 h2 h3 h4 h5 h6 h7 h8 h9 h10 =>
    rw [huniq k' h1 h5, hdesc] at h6
    exact absurd h6 (by decide)
  | block k' e' a' s1 d' h1 h2 h3 h4 h5 h6 h7 h8 h9 h10 h11 h12 h13 h14 h15 =>
    obtain rfl := huniq k' h1 h7
    have haa : a' = a := by
      have := h12.head; rw [ha] at this; simpa using this.symm
    subst haa
    rw [hdest] at h9
    simp only [Except.ok.injEq, Prod.mk.injEq] at h9
    obtain ⟨rfl, rfl⟩ := h9
    exact .inl (heldBackA hi hk hke hs h8 h12 h13 h14 h15)
  | move k' e' a' a'' s1 s2 d' h1 h2 h3 h4 h5 h6 h7 h8 h9 h10 h11 h12 h13 h14 =>
    obtain rfl := huniq k' h1 h6
    have haa : a' = a := by
      have := h10.head; rw [ha] at this; simpa using this.symm
    subst haa
    rw [hdest] at h8
    simp only [Except.ok.injEq, Prod.mk.injEq] at h8
    obtain ⟨rfl, rfl⟩ := h8
    exact absurd (h9 hcap).symm hke

/-- C103: under blocking after service an agent that is held back by a full queue in which nobody is in service gets the
departure time infinity. -/
theorem C103_until_infinity {N : NetCfg T R} (hN : N.OkA) {n : Net T R} (hb : n.bas = true) {k e : Nat} {a : Agent T}
    (he : agents (n.qs e).departures = []) : retry N n k e a = ⊤ := by
  have hd : headTime (n.qs e).departures = ⊤ := by
    unfold headTime
    cases h : (n.qs e).departures with
    | nil => rfl
    | cons x l => cases x with
      | infty => rfl
      | agent y => rw [h] at he; simp [agents] at he
  rw [retry, if_pos hb, hd]
  exact top_le_iff.mp (hN.jit _ _)

theorem evA_keeps {c : QCfg T} {s s' : QS T} {r : Option (Agent T)} (h : EvA c s s' r) {a : Agent T}
    (ha : a ∈ agents s.departures) (ht : a.time = ⊤) : a ∈ agents s'.departures := by
  have key : ∀ (x : Agent T) (deps : List (Slot T)), headTime s.departures < headTime s.arrivals →
      x.time = headTime s.departures → (agents s.departures).Perm (x :: agents deps) → a ∈ agents deps := by
    intro x deps h1 h2 h3
    rcases List.mem_cons.mp (h3.mem_iff.mp ha) with rfl | h4
    · rw [← h2, ht] at h1; exact absurd h1 not_top_lt
    · exact h4
  cases h with
  | simple hk h =>
    cases h with
    | idle _ _ h => rw [h]; exact ha
    | dep x h1 h2 h3 =>
      obtain ⟨deps, g1, -, g2⟩ := h2.served
      have := key x deps h1 h2.time_eq g1
      rcases g2 with ⟨b, rest, -, -, -, -, e4, -⟩ | ⟨-, -, -, e3, -⟩
      · exact e4.mem_iff.mpr (by simp [this])
      · rw [e3]; exact this
    | arr x rest _ _ _ h _ =>
      rcases h.served with ⟨-, -, -, e3, -, -⟩ | ⟨-, -, -, e3, -, -⟩
      · exact e3.mem_iff.mpr (by simp [ha])
      · rw [e3]; exact ha
    | block x rest _ _ _ _ h _ => rw [h.departures]; exact ha
  | resource hk h =>
    cases h with
    | idle _ _ h => rw [h]; exact ha
    | dep x x' h1 h2 =>
      obtain ⟨deps, g1, -, g2⟩ := h2.served
      have := key x deps h1 h2.time_eq g1
      rcases g2 with ⟨b, rest, k, n, om, -, -, -, -, -, e4, -⟩ | ⟨-, -, -, e3, -⟩
      · exact e4.mem_iff.mpr (by simp [this])
      · rw [e3]; exact this
    | arr x rest _ _ _ _ h =>
      obtain ⟨k, n, om, -, ⟨k', -, -, -, e3, -⟩ | ⟨-, -, -, -, e3, -⟩⟩ := h.served
      · exact e3.mem_iff.mpr (by simp [ha])
      · rw [e3]; exact ha
    | block x rest _ _ _ _ _ h => rw [h.departures]; exact ha
    | deposit x had _ _ _ h => rw [h.departures]; exact ha
    | full x had _ _ _ _ h => rw [h.departures]; exact ha

theorem stepA_keeps {N : NetCfg T R} {n n' : Net T R} (hs : StepOutA N n n') {j : Nat} {b : Nat → Bool}
    (hi : NetInvA N b n) {a : Agent T}
    (ha : a ∈ agents (n.qs j).departures) (ht : a.time = ⊤) : a ∈ agents (n'.qs j).departures := by
  cases hs with
  | empty _ h1 => rw [h1]; exact ha
  | idle _ _ _ _ _ _ _ _ _ h1 => rw [h1]; exact ha
  | arrive k s' h1 h2 h3 h4 h5 h6 h7 h8 =>
    rw [h8]
    by_cases hjk : j = k
    · subst hjk
      rw [Function.update_self]
      exact evA_keeps h7.out (by split <;> exact ha) ht
    · rw [Function.update_of_ne hjk]; exact ha
  | block k e x s1 d h1 h2 h3 h4 h5 h6 h7 h8 h9 h10 h11 h12 h13 =>
    rw [h13]
    by_cases hjk : j = k
    · subst hjk
      rw [Function.update_self]
      obtain ⟨rest, g1, g2⟩ := h12.deps
      refine g2.mem_iff.mpr (List.mem_cons_of_mem _ ?_)
      rcases List.mem_cons.mp (g1.mem_iff.mp ha) with rfl | h
      · exfalso
        have hd := h12.head
        have : headTime (n.qs j).departures = ⊤ := by
          cases hl : (n.qs j).departures with
          | nil => rfl
          | cons y l => rw [hl] at hd; simp at hd; subst hd; exact ht
        rw [nextEventDescription, if_neg h5, this, if_neg not_top_lt] at h8
        split at h8 <;> simp at h8
      · exact h
    · rw [Function.update_of_ne hjk]
      by_cases hje : j = e
      · subst hje; rw [Function.update_self]; exact ha
      · rw [Function.update_of_ne hje]; exact ha
  | move k e x x' s1 s2 d h1 h2 h3 h4 h5 h6 h7 h8 h9 h10 h11 h12 =>
    rw [h12]
    have hk1 : j = k → a ∈ agents s1.departures := by rintro rfl; exact evA_keeps h10.out ha ht
    by_cases hje : j = e
    · subst hje
      rw [Function.update_self]
      have hu : a ∈ agents (Function.update n.qs k s1 j).departures := by
        by_cases hjk : j = k
        · have := hk1 hjk
          subst hjk; rw [Function.update_self]; exact this
        · rw [Function.update_of_ne hjk]; exact ha
      cases h11 with
      | queue g1 g2 =>
        obtain ⟨m, -, -, -, -, -, -, -, -, q, -, -, -, q2⟩ := g2.mid
        refine evA_keeps q2.out ?_ ht
        have : a ∈ agents m.departures := by rw [q]; exact hu
        split <;> exact this
      | null m g1 =>
        obtain ⟨q1, -⟩ := null_of_goodA hi h3 h4 g1
        rw [q1.2.2.2.2.2] at ha
        simp [agents] at ha
    · rw [Function.update_of_ne hje]
      by_cases hjk : j = k
      · have := hk1 hjk
        subst hjk; rw [Function.update_self]; exact this
      · rw [Function.update_of_ne hjk]; exact ha

/-- C103: an agent whose departure is scheduled for time infinity stays where it is however long the network is
simulated. -/
theorem C103_for_ever {N : NetCfg T R} (hN : N.OkA) {b : Nat → Bool} {n n' : Net T R} (h : NetReach N b n) {k : Nat}
    {a : Agent T} (ha : a ∈ agents (n.qs k).departures) (ht : a.time = ⊤) {m : Nat} (hr : n.simulate N m = .ok n') :
    a ∈ agents (n'.qs k).departures :=
  (simulate_induct hN (fun x => a ∈ agents (x.qs k).departures)
    (fun n1 n2 h1 h2 h3 => stepA_keeps (step_of_simulateA hN h1 h3).2 (h1.invA hN) h2 ht) m h ha hr).1

/-- C103 (F39): agents that bring resources back to the ResourceQueue can be locked out for ever. In `rentNet` the
ResourceQueue 1 has no server left and nobody in it after 9 events; agent (0, 0), carrying a resource that it would
leave there, is held back by it at time 10 until time infinity; everybody else is stuck as well, and the clock jumps to infinity. -/
theorem C103_locked_out : rentNet.OkA ∧ NetReach rentNet (fun _ => true) (rentAt 10) ∧ (rentAt 10).bas = true ∧
    ((rentAt 10).qs 1).numServers = .fin 0 ∧ presentIds ((rentAt 10).qs 1) = [] ∧
    (agents ((rentAt 10).qs 2).departures).map (fun a => (a.id, a.time, a.kind)) =
      [((0, 0), 10, .resource true false)] ∧
    (agents ((rentAt 11).qs 2).departures).map (fun a => (a.id, a.time, a.kind)) =
      [((0, 0), ⊤, .resource true false)] ∧
    ((rentAt 11).qs 2).queue.map (fun a => (a.id, a.kind)) = [((0, 1), .resource true false)] ∧
    (rentAt 12).t = ⊤ ∧
    ∀ m n', (rentAt 11).simulate rentNet m = .ok n' →
      ((0, 0), .resource true false) ∈ (agents (n'.qs 2).departures).map (fun a => (a.id, a.kind)) := by
  refine ⟨rentNet_ok, rentAt_reach 10, by decide +kernel, by decide +kernel, by decide +kernel, by decide +kernel,
    by decide +kernel, by decide +kernel, by decide +kernel, fun m n' h => ?_⟩
  have h11 : (agents ((rentAt 11).qs 2).departures).map (fun a => (a.id, a.time, a.kind)) =
      [((0, 0), ⊤, .resource true false)] := by decide +kernel
  obtain ⟨a, ha, he⟩ := List.mem_map.mp (h11 ▸ List.mem_singleton_self _ :
    ((0, 0), (⊤ : ℕ∞), AgentKind.resource true false) ∈ (agents ((rentAt 11).qs 2).departures).map
      (fun a => (a.id, a.time, a.kind)))
  simp only [Prod.mk.injEq] at he
  exact List.mem_map.mpr ⟨a, C103_for_ever rentNet_ok (rentAt_reach 11) ha he.2.1 h, by rw [he.1, he.2.2]⟩

/-! ## C98-C101 for `rentNet` -/

/-- C98, C99: after five events of `rentNet` an agent arrives at queue 0; then agent (0, 0) leaves the ResourceQueue
with a resource. -/
example : rentNet.OkA ∧ rentNet.NoLoopA ∧ NetReach rentNet (fun _ => true) (rentAt 5) ∧
    (rentAt 5).t = 6 ∧ (rentAt 6).t = 7 ∧
    ((rentAt 5).qs 1).numServers = .fin 2 ∧ ((rentAt 6).qs 1).numServers = .fin 1 ∧
    (agents ((rentAt 6).qs 2).departures).map (fun a => (a.id, a.kind)) = [((0, 0), .resource true false)] :=
  ⟨rentNet_ok, rentNet_loop, rentAt_reach 5, by decide +kernel, by decide +kernel, by decide +kernel,
    by decide +kernel, by decide +kernel⟩

/-- C100: there are three agents, as many as `max_agents` allows, and the outside stream has stopped. -/
example : rentNet.maxAgents = .fin 3 ∧ (everyone rentNet (rentAt 3).qs).length = 3 ∧
    (everyone rentNet (rentAt 12).qs).length = 3 := by decide +kernel

/-- C101: two resources of four are lost, as the first two agents took a server both when they arrived and when they
left (F6), and two are carried. -/
example : (∀ k < rentNet.nE, carry (rentNet.qc k).factory = 0) ∧ resources rentNet (rentAt 0) = 4 ∧
    resources rentNet (rentAt 6) = 2 ∧ ((rentAt 6).qs 1).numServers = .fin 1 ∧
    resources rentNet (rentAt 9) = 2 ∧ ((rentAt 9).qs 1).numServers = .fin 0 := by
  refine ⟨?_, by decide +kernel, by decide +kernel, by decide +kernel, by decide +kernel, by decide +kernel⟩
  decide

/-! ## C45 with queues of every class -/

/-- C45, the part that holds: as long as some queue has an event ahead, `simulate(n=1)` either performs
an event (an arrival, a move or a blocking) and counts it, or does nothing at all except counting an event; the
second can happen only finitely often in a row since the schedule gets shorter. Missing: that every call
performs an event, which is false (`C45_idle_event`). -/
theorem C45_any_events_partial {N : NetCfg T R} (hN : N.OkA) {b : Nat → Bool} {n n' : Net T R}
    (h : NetReach N b n) (hr : n.simulate N 1 = .ok n') (hev : ∃ k < N.nE, (n.qs k).time < ⊤) :
    n'.numEvents = n.numEvents + 1 ∧
    ((∃ k < N.nE, ∃ a, EventA N n n' k a ∧ n'.qs ≠ n.qs ∧ n'.t = a.time) ∨
      (Same n n' ∧ n'.heap.size < n.heap.size)) := by
  have hi := h.invA hN
  obtain ⟨-, hs⟩ := step_of_simulateA hN h hr
  have hne := nonempty_of_eventA hi hev
  cases hs with
  | empty h0 h1 => exact absurd h0 hne
  | idle k x hp h1 h2 h3 h4 h5 h6 h7 =>
    have hx : x = n.t := by
      rcases h4 with h4 | h4
      · exact h4
      · obtain ⟨j, hj, ht⟩ := hev
        exact absurd (h5 j hj) (by rw [h4, top_le_iff]; exact ht.ne)
    subst hx
    refine ⟨by rw [h7], .inr ⟨by rw [h7]; exact ⟨rfl, rfl, rfl, rfl, rfl, rfl, rfl, rfl⟩, ?_⟩⟩
    rw [h7]; exact pop_shrinksA hi hne h6
  | arrive k s' h1 h2 h3 h4 h5 h6 h7 h8 h9 h10 h11 h12 h13 =>
    refine ⟨h13.events, .inl ?_⟩
    have hq : n'.qs ≠ n.qs := by
      intro hq
      have hc := h7.cur
      obtain ⟨m1, m2, m3, m4, m5, m6⟩ := maybeInactive_same ((n.qs k).active && n.maxed N) (n.qs k)
      have hlt : headTime (n.qs k).arrivals < ⊤ := by
        by_contra hc
        rw [nextEventDescription, if_neg h3, if_neg hc] at h6
        split at h6 <;> exact absurd h6 (by decide)
      have hk : s' = n.qs k := by
        have := congrFun hq k; rw [h8, Function.update_self] at this; exact this
      have hb : (if ((n.qs k).active && n.maxed N) = true then setInactive (n.qs k) else n.qs k).numBlocked =
          (n.qs k).numBlocked := by split <;> rfl
      have hn : (if ((n.qs k).active && n.maxed N) = true then setInactive (n.qs k) else n.qs k).numArrivals =
          (n.qs k).numArrivals := by split <;> rfl
      cases h7.out with
      | simple _ ho =>
        cases ho with
        | idle g _ _ => rw [m1] at g; rw [g] at hlt; exact lt_irrefl _ hlt
        | arr a rest _ _ _ e _ =>
          have := e.numArrivals
          rw [hk, hn] at this; omega
        | block a rest _ _ _ _ e _ =>
          have := e.numBlocked
          rw [hk, hb] at this; omega
      | resource _ ho =>
        cases ho with
        | idle g _ _ => rw [m1] at g; rw [g] at hlt; exact lt_irrefl _ hlt
        | arr a rest _ _ _ _ e =>
          have := e.numArrivals
          rw [hk, hn] at this; omega
        | block a rest _ _ _ _ _ e =>
          have := e.numBlocked
          rw [hk, hb] at this; omega
        | deposit a had _ _ _ e =>
          have := e.perm.length_eq
          rw [hk, m1] at this
          simp at this
        | full a had _ _ _ _ _ _ _ _ e =>
          rw [hk, hb] at e; omega
    obtain ⟨k, hk, a, g1, g2, g3, -⟩ := (C98_events_in_time_order hN h hr).resolve_left hq
    exact ⟨k, hk, a, g1, hq, g3⟩
  | block k e a s1 d h1 h2 h3 h4 h5 h6 h7 h8 h9 h10 h11 h12 h13 h14 h15 h16 h17 h18 =>
    refine ⟨h18.events, .inl ?_⟩
    have hq : n'.qs ≠ n.qs := by
      intro hq
      have := congrArg QS.numBlocked (congrFun hq e)
      rw [h13, Function.update_of_ne (Ne.symm h4), Function.update_self] at this
      simp at this
    obtain ⟨k, hk, a, g1, g2, g3, -⟩ := (C98_events_in_time_order hN h hr).resolve_left hq
    exact ⟨k, hk, a, g1, hq, g3⟩
  | move k e a a' s1 s2 d h1 h2 h3 h4 h5 h6 h7 h8 h9 h10 h11 h12 h13 h14 h15 h16 h17 =>
    refine ⟨h17.events, .inl ?_⟩
    have hq : n'.qs ≠ n.qs := by
      intro hq
      have := (event_of_moveA h10 h11 (null_of_goodA hi h3 h4) h12).2.2.1
      rw [hq] at this
      omega
    obtain ⟨k, hk, a, g1, g2, g3, -⟩ := (C98_events_in_time_order hN h hr).resolve_left hq
    exact ⟨k, hk, a, g1, hq, g3⟩

/-- An initialised network can perform a step, either since no agent can have an infinite service time at a
queue that leads to itself or since there are no ResourceQueues and C41 applies. -/
theorem step_ok {N : NetCfg T R} (hN : N.OkA) (hF : N.NoLoopA ∨ N.Ok ∧ N.NoInf) {b : Nat → Bool} {n : Net T R}
    (h : NetReach N b n) (hi : n.initialized = true) :
    ∃ n', n.simulate N 1 = .ok n' ∧ NetReach N b n' ∧ n'.initialized = true := by
  rcases hF with hF | ⟨hO, hF⟩
  · exact C99_never_crashes hN hF h hi 1
  · exact C41_never_crashes hO hF h hi 1

theorem steps_ok_any {N : NetCfg T R} (hN : N.OkA) (hF : N.NoLoopA ∨ N.Ok ∧ N.NoInf) {b : Nat → Bool} {n : Net T R}
    (h : NetReach N b n) (hi : n.initialized = true) (m : Nat) : ∃ n', n.steps N m = .ok n' := by
  rcases hF with hF | ⟨hO, hF⟩
  · obtain ⟨n', h1, -⟩ := steps_okA hN hF m h hi; exact ⟨n', h1⟩
  · obtain ⟨n', h1, -⟩ := steps_ok hO hF m h hi; exact ⟨n', h1⟩

/-- C45, the part that holds, second half: an event does take place within as many calls as there are
entries in the schedule, at the next event time. -/
theorem C45_any_progress_partial {N : NetCfg T R} (hN : N.OkA) (hF : N.NoLoopA ∨ N.Ok ∧ N.NoInf) {b : Nat → Bool} : ∀ {n : Net T R},
    NetReach N b n → n.initialized = true → (∃ k < N.nE, (n.qs k).time < ⊤) →
    ∃ j < n.heap.size, ∃ n1 n2, n.simulate N j = .ok n1 ∧ Same n n1 ∧ NetReach N b n1 ∧
      n1.simulate N 1 = .ok n2 ∧ ∃ k < N.nE, ∃ a, EventA N n1 n2 k a ∧ n2.qs ≠ n1.qs ∧ n2.t = a.time ∧
        ∀ j < N.nE, a.time ≤ (n.qs j).time := by
  intro n
  induction hsz : n.heap.size using Nat.strong_induction_on generalizing n with
  | _ sz ih =>
    intro h hinit hev
    subst hsz
    have hne := nonempty_of_eventA (h.invA hN) hev
    obtain ⟨n', hr, hreach, hinit'⟩ := step_ok hN hF h hinit
    rcases (C45_any_events_partial hN h hr hev).2 with ⟨k, hk, a, g1, g0, g2⟩ | ⟨hsame, hlt⟩
    · refine ⟨0, by omega, n, n', by simp [Net.simulate, Net.steps, hinit],
        ⟨rfl, rfl, rfl, rfl, rfl, rfl, rfl, rfl⟩, h, hr, k, hk, a, g1, g0, g2, ?_⟩
      obtain ⟨k', hk', a', q1, q2, q3, q4⟩ := (C98_events_in_time_order hN h hr).resolve_left g0
      intro j hj
      rw [← g2, q3]; exact (q4 j hj).1
    · obtain ⟨j, hj, n1, n2, q1, q2, q3, q4, k, hk, a, q5, q0, q6, q7⟩ := ih _ hlt rfl hreach hinit'
        (by rw [hsame.qs]; exact hev)
      refine ⟨j + 1, by omega, n1, n2, ?_, ⟨q2.qs.trans hsame.qs, q2.num.trans hsame.num, q2.t.trans hsame.t,
        q2.init.trans hsame.init, q2.bas.trans hsame.bas, q2.probs.trans hsame.probs,
        q2.unif.trans hsame.unif, q2.jit.trans hsame.jit⟩, q3, q4, k, hk, a, q5, q0, q6, ?_⟩
      · rw [simulate_one, if_pos hinit] at hr
        rw [Net.simulate, if_pos hinit'] at q1
        rw [Net.simulate, if_pos hinit, Net.steps, hr]
        exact q1
      · rw [← hsame.qs]; exact q7

/-- `rentNet` has an event ahead at every moment shown. -/
example : rentNet.OkA ∧ rentNet.NoLoopA ∧ NetReach rentNet (fun _ => true) (rentAt 5) ∧ (rentAt 5).initialized = true ∧
    ((rentAt 5).qs 1).time < ⊤ :=
  ⟨rentNet_ok, rentNet_loop, rentAt_reach 5, by decide +kernel, by decide +kernel⟩

end Verif.NetSpec
