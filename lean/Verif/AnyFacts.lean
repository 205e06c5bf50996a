import Verif.AnyRun
import Verif.NetFacts

/-! # The agents in a network with queues of every class (proof support) -/

set_option linter.unusedSectionVars false
set_option linter.unusedSimpArgs false
set_option linter.unusedVariables false

namespace Verif

variable {T R : Type*} [LinearOrder T] [OrderTop T] [Zero T] [LinearOrder R] [Add R]

/-- `_num_total` is the number of agents scheduled, waiting and in service. -/
theorem QGoodA.total {c : QCfg T} {b : Bool} {s : QS T} (h : QGoodA c b s) :
    s.numTotal = (presentIds s).length := by
  rcases h with ⟨hk, h⟩ | ⟨-, h⟩
  · rcases kind_cases hk with hk | hk
    · have hq := h.inv hk
      rw [hq.numTotal, hq.numSystem]
      simp [presentIds]; omega
    · have hq := h.rinv hk
      rw [hq.numTotal, hq.numSystem]
      simp [presentIds]; omega
  · rw [h.ids, h.2.1]; rfl

/-- An arriving agent leaves the queue at once: it is lost, or it deposits its resource. -/
def LeftA (c : QCfg T) (s s' : QS T) (a : Agent T) : Prop :=
  ((c.kind = .loss ∨ c.kind = .resource) ∧ (∃ x : Agent T, x.id = a.id ∧ s'.lost = s.lost ++ [x]) ∧
    s'.numServers = s.numServers) ∨
  (c.kind = .resource ∧ (∃ had, a.kind = .resource true had) ∧ s'.numServers = s.numServers.addInt 1 ∧
    s'.lost = s.lost)

theorem ResDep.ids {c : QCfg T} {s s' : QS T} {a a' : Agent T} (h : ResDep c s s' a a') :
    (presentIds s).Perm (a.id :: presentIds s') := by
  obtain ⟨deps, g1, -, g3⟩ := h.served
  rw [List.perm_iff_count]
  intro x
  have c1 := List.perm_iff_count.mp (g1.map (·.id)) x
  simp only [presentIds, List.count_append, List.count_cons, List.map_cons, h.arrivals] at c1 ⊢
  rcases g3 with ⟨b, rest, k, n, om, e1, -, -, -, e3, e4, -⟩ | ⟨-, -, e2, e3, -⟩
  · have c2 := List.perm_iff_count.mp (e4.map (·.id)) x
    simp only [List.map_cons, List.count_cons] at c2
    rw [e1, e3]
    simp only [List.map_cons, List.count_cons]
    omega
  · rw [e2, e3]; omega

/-- What a departure does with the ids. -/
theorem DepEffA.ids {c : QCfg T} {s s' : QS T} {a a' : Agent T} (h : DepEffA c s s' a a') :
    (presentIds s).Perm (a'.id :: presentIds s') ∧ a ∈ agents s.departures ∧ s'.oArrivals = s.oArrivals ∧
    s'.lost = s.lost ∧ s'.numDepartures = s.numDepartures + 1 := by
  have hid : a'.id = a.id := by rw [h.same]
  have ho := h.out
  cases ho with
  | simple hk ho =>
    cases ho with
    | dep _ e1 e2 e3 =>
      have : a' = a := by
        have := h.head; rw [e3] at this; simpa using this
      subst this
      refine ⟨e2.ids, ?_, e2.oArrivals, e2.lost, e2.numDepartures⟩
      obtain ⟨deps, g1, -⟩ := e2.served
      exact g1.mem_iff.mpr (by simp)
  | resource hk ho =>
    cases ho with
    | dep x _ e1 e2 =>
      have : x = a := by
        have := h.head; rw [e2.head] at this; simpa using this
      subst this
      refine ⟨by rw [hid]; exact e2.ids, ?_, e2.oArrivals, e2.lost, e2.numDepartures⟩
      obtain ⟨deps, g1, -⟩ := e2.served
      exact g1.mem_iff.mpr (by simp)

theorem ExtSpec.listA {c : QCfg T} {s s' : QS T} {t : T} {rest : List (Slot T)} (h : ExtSpec c s s' t rest) :
    ∃ ext : List (Agent T), (agents s'.arrivals).Perm (ext ++ agents rest) ∧
      s'.oArrivals = s.oArrivals + ext.length ∧ (∀ a ∈ ext, a.id = (c.edge.idx, s.oArrivals)) ∧
      (∀ a ∈ ext, a.kind = c.factory) ∧ ext.length ≤ 1 ∧ (s.active = false → ext = []) := by
  obtain ⟨ext, h1, h2, h3, -⟩ := h
  refine ⟨ext, h2, h3, ?_⟩
  generalize s'.nextCt = ν, s'.active = act, s'.arrCalls = n at h1
  cases h1 <;> simp_all [newAgent]

/-- Agents created and gone in an arrival event. -/
theorem EvA.ids {c : QCfg T} {s s' : QS T} (h : EvA c s s' none) :
    ∃ ext gone : List (Agent T), (presentIds s' ++ gone.map (·.id)).Perm (ext.map (·.id) ++ presentIds s) ∧
      s'.oArrivals = s.oArrivals + ext.length ∧ (∀ a ∈ ext, a.id = (c.edge.idx, s.oArrivals)) ∧ ext.length ≤ 1 ∧
      gone.length ≤ 1 ∧ (∀ a ∈ gone, a ∈ agents s.arrivals ∧ LeftA c s s' a) ∧
      (s.active = false → ext = []) ∧ s'.numDepartures = s.numDepartures := by
  have admitted : ∀ {ext : List (Agent T)} {rest : List (Slot T)} {a : Agent T},
      (agents s.arrivals).Perm (a :: agents rest) → (agents s'.arrivals).Perm (ext ++ agents rest) →
      ((∃ y : Agent T, y.id = a.id ∧ s'.queue = s.queue ∧ (agents s'.departures).Perm (y :: agents s.departures)) ∨
        (∃ y : Agent T, y.id = a.id ∧ s'.queue = s.queue ++ [y] ∧ s'.departures = s.departures)) →
      (presentIds s').Perm (ext.map (·.id) ++ presentIds s) := by
    intro ext rest a hp g1 hs
    rw [List.perm_iff_count]
    intro x
    have c1 := List.perm_iff_count.mp (hp.map (·.id)) x
    have c2 := List.perm_iff_count.mp (g1.map (·.id)) x
    simp only [presentIds, List.count_append, List.count_cons, List.map_cons, List.map_append, List.map_nil,
      List.count_nil] at c1 c2 ⊢
    rcases hs with ⟨y, hy, e2, e4⟩ | ⟨y, hy, e2, e4⟩
    · have c3 := List.perm_iff_count.mp (e4.map (·.id)) x
      simp only [List.map_cons, List.count_cons, hy] at c3
      rw [e2]; omega
    · rw [e2, e4]
      simp only [List.map_append, List.map_cons, List.map_nil, List.count_append, List.count_cons, List.count_nil, hy]
      omega
  have blocked : ∀ {ext : List (Agent T)} {rest : List (Slot T)} {a : Agent T},
      (agents s.arrivals).Perm (a :: agents rest) → (agents s'.arrivals).Perm (ext ++ agents rest) →
      s'.departures = s.departures → s'.queue = s.queue →
      (presentIds s' ++ [a.id]).Perm (ext.map (·.id) ++ presentIds s) := by
    intro ext rest a hp g1 e1 e2
    rw [List.perm_iff_count]
    intro x
    have c1 := List.perm_iff_count.mp (hp.map (·.id)) x
    have c2 := List.perm_iff_count.mp (g1.map (·.id)) x
    simp only [presentIds, List.count_append, List.count_cons, List.map_cons, List.map_append, List.map_nil,
      List.count_nil, e1, e2] at c1 c2 ⊢
    omega
  have gone : ∀ {a : Agent T}, ResGone s s' a → (presentIds s' ++ [a.id]).Perm (presentIds s) := by
    intro a e
    rw [List.perm_iff_count]
    intro x
    have c1 := List.perm_iff_count.mp (e.perm.map (·.id)) x
    simp only [presentIds, List.count_append, List.count_cons, List.map_cons, List.map_append, List.map_nil,
      List.count_nil, e.departures, e.queue] at c1 ⊢
    omega
  cases h with
  | simple hk h =>
    cases h with
    | idle _ _ h => exact ⟨[], [], by rw [h]; simp, by rw [h]; simp, by simp, by simp, by simp,
        by simp, by simp, by rw [h]⟩
    | arr a rest _ _ _ e _ =>
      obtain ⟨ext, g1, g2, g3, -, g4, g5⟩ := e.ext.listA
      refine ⟨ext, [], ?_, g2, g3, g4, by simp, by simp, g5, e.numDepartures⟩
      simp only [List.map_nil, List.append_nil]
      refine admitted e.perm g1 ?_
      rcases e.served with ⟨-, e2, -, e4, -, -⟩ | ⟨-, e2, -, e4, -, -⟩
      · exact .inl ⟨_, by rfl, e2, e4⟩
      · exact .inr ⟨a, rfl, e2, e4⟩
    | block a rest _ _ hl _ e _ =>
      obtain ⟨ext, g1, g2, g3, -, g4, g5⟩ := e.ext.listA
      refine ⟨ext, [a], blocked e.perm g1 e.departures e.queue, g2, g3, g4, by simp, ?_, g5, e.numDepartures⟩
      intro x hx
      simp only [List.mem_singleton] at hx
      subst hx
      exact ⟨e.perm.mem_iff.mpr (by simp), .inl ⟨.inl hl, ⟨_, by rfl, e.lost⟩, e.numServers⟩⟩
  | resource hk h =>
    cases h with
    | idle _ _ h => exact ⟨[], [], by rw [h]; simp, by rw [h]; simp, by simp, by simp, by simp,
        by simp, by simp, by rw [h]⟩
    | arr a rest _ _ _ _ e =>
      obtain ⟨ext, g1, g2, g3, -, g4, g5⟩ := e.ext.listA
      refine ⟨ext, [], ?_, g2, g3, g4, by simp, by simp, g5, e.numDepartures⟩
      simp only [List.map_nil, List.append_nil]
      refine admitted e.perm g1 ?_
      obtain ⟨k, n, om, -, ⟨k', -, e2, -, e4, -⟩ | ⟨-, e2, -, -, e4, -⟩⟩ := e.served
      · exact .inl ⟨_, by rfl, e2, e4⟩
      · exact .inr ⟨_, by rfl, e2, e4⟩
    | block a rest _ _ _ _ _ e =>
      obtain ⟨ext, g1, g2, g3, -, g4, g5⟩ := e.ext.listA
      refine ⟨ext, [a], blocked e.perm g1 e.departures e.queue, g2, g3, g4, by simp, ?_, g5, e.numDepartures⟩
      intro x hx
      simp only [List.mem_singleton] at hx
      subst hx
      exact ⟨e.perm.mem_iff.mpr (by simp), .inl ⟨.inr hk, ⟨_, by rfl, e.lost⟩, e.numServers⟩⟩
    | deposit a had _ _ hka e e1 _ _ _ e2 =>
      refine ⟨[], [a], by simpa using gone e, by simpa using e.oArrivals, by simp, by simp, by simp, ?_, by simp,
        e.numDepartures⟩
      intro x hx
      simp only [List.mem_singleton] at hx
      subst hx
      exact ⟨e.perm.mem_iff.mpr (by simp), .inr ⟨hk, ⟨had, hka⟩, e1, e2⟩⟩
    | full a had _ _ hka _ e e1 _ _ _ e2 =>
      refine ⟨[], [a], by simpa using gone e, by simpa using e.oArrivals, by simp, by simp, by simp, ?_, by simp,
        e.numDepartures⟩
      intro x hx
      simp only [List.mem_singleton] at hx
      subst hx
      exact ⟨e.perm.mem_iff.mpr (by simp), .inl ⟨.inr hk, ⟨x, rfl, e2⟩, e1⟩⟩

/-- Agents created and gone when a queue receives an agent. -/
theorem RecvEffA.ids {c : QCfg T} {s s' : QS T} {a : Agent T} {off : QS T → Bool} (h : RecvEffA c s s' a off) :
    ∃ ext gone : List (Agent T),
      (presentIds s' ++ gone.map (·.id)).Perm (ext.map (·.id) ++ (a.id :: presentIds s)) ∧
      s'.oArrivals = s.oArrivals + ext.length ∧ (∀ a ∈ ext, a.id = (c.edge.idx, s.oArrivals)) ∧ ext.length ≤ 1 ∧
      gone.length ≤ 1 ∧ (∀ x ∈ gone, (x = a ∨ x ∈ agents s.arrivals) ∧ LeftA c s s' x) ∧
      s'.numDepartures = s.numDepartures ∧
      ∃ m, addArrivalAgent c s a = .ok m ∧ m.active = s.active ∧ m.numTotal = s.numTotal + 1 ∧
        (m.active = false ∨ off m = true → ext = []) := by
  obtain ⟨m, a1, a2, a3, a4, a5, a6, a7, a8, a9, a10, a11, a12, a13⟩ := h.mid
  obtain ⟨ext, gone, g1, g2, g3, g4, g5, g6, g7, g8⟩ := a13.out.ids
  obtain ⟨m1, m2, m3, m4, m5, m6⟩ := maybeInactive_same (off m) m
  have hsv : (if off m = true then setInactive m else m).numServers = m.numServers := by split <;> rfl
  have hnd : (if off m = true then setInactive m else m).numDepartures = m.numDepartures := by split <;> rfl
  have b1 : m.numDepartures = s.numDepartures := by
    unfold addArrivalAgent at a1
    split at a1
    · simp only [Except.ok.injEq] at a1; rw [← a1]; split <;> rfl
    · split at a1
      · simp at a1
      · simp only [Except.ok.injEq] at a1; rw [← a1]; unfold bumpTime; rfl
  refine ⟨ext, gone, ?_, by rw [g2, m5, a4], by rw [← a4, ← m5]; exact g3, g4, g5, ?_, by rw [g8, hnd, b1],
    m, a1, a3, a2, ?_⟩
  · rw [setInactive_ids] at g1
    refine g1.trans (List.Perm.append_left _ ?_)
    have := a8.map (·.id)
    simp only [presentIds, a9, a10]
    exact this.append_right _
  · intro x hx
    obtain ⟨q1, q2⟩ := g6 x hx
    rw [m1] at q1
    refine ⟨by simpa using a8.mem_iff.mp q1, ?_⟩
    unfold LeftA at q2 ⊢
    rw [m6, hsv, a5, a7] at q2
    exact q2
  · intro hx
    refine g7 ?_
    rcases hx with hx | hx
    · split
      · rfl
      · exact hx
    · rw [if_pos hx]; rfl

theorem pop_shrinksA {N : NetCfg T R} {b : Nat → Bool} {n : Net T R} (hi : NetInvA N b n) (hs : n.heap.size ≠ 0)
    {h : PQ T} {p : T × Nat} (hp : n.heap.pop = some (h, some p)) : h.size < n.heap.size := by
  have hI : n.heap.Inv N.nE := hi.heap.resolve_right hs
  obtain ⟨h', res, g1, g2, g3, g4⟩ := PQ.pop_spec hI (by omega)
  rw [g1] at hp
  simp only [Option.some.injEq, Prod.mk.injEq] at hp
  obtain ⟨rfl, rfl⟩ := hp
  obtain ⟨x, k⟩ := p
  obtain ⟨e1, stale, e2, e3, e4⟩ := g4
  have := e3.length_eq
  rw [PQ.stored_length hI, List.length_append, List.length_cons, PQ.stored_length g2] at this
  omega

namespace NetSpec

theorem step_of_simulateA {N : NetCfg T R} (hN : N.OkA) {b : Nat → Bool} {n n' : Net T R}
    (h : NetReach N b n) (hr : n.simulate N 1 = .ok n') : n.initialized = true ∧ StepOutA N n n' := by
  rw [simulate_one] at hr
  split at hr
  · rename_i hi
    refine ⟨hi, ?_⟩
    rcases step_specA hN (h.invA hN) hi with ⟨n2, g1, g2, -⟩ | ⟨g1, -⟩
    · rw [g1] at hr; simp only [Except.ok.injEq] at hr; exact hr ▸ g2
    · rw [g1] at hr; simp at hr
  · simp at hr

theorem nonempty_of_eventA {N : NetCfg T R} {b : Nat → Bool} {n : Net T R} (hi : NetInvA N b n)
    (h : ∃ k < N.nE, (n.qs k).time < ⊤) : n.heap.size ≠ 0 := by
  obtain ⟨k, hk, ht⟩ := h
  intro h0
  have := ((hi.node k hk (by simp)).1 ht).2
  rw [PQ.stored_nil h0] at this
  simp at this

end NetSpec

end Verif
