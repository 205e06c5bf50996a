import Verif.Queue
import Verif.HeapProofs
import Mathlib.Data.List.Perm.Basic
import Mathlib.Order.Lattice
import Mathlib.Order.MinMax

/-! # Effect of each queue operation, field by field (proof support) -/

set_option linter.unusedSectionVars false
set_option linter.unusedSimpArgs false
set_option linter.unusedVariables false

namespace Verif

variable {T : Type*} [LinearOrder T] [OrderTop T] [Zero T]

/-- The agents in a list of slots. -/
def agents (l : List (Slot T)) : List (Agent T) :=
  l.filterMap fun | .infty => none | .agent a => some a

@[simp] theorem agents_nil : agents ([] : List (Slot T)) = [] := rfl
@[simp] theorem agents_infty (l : List (Slot T)) : agents (.infty :: l) = agents l := rfl
@[simp] theorem agents_agent (a : Agent T) (l : List (Slot T)) :
    agents (.agent a :: l) = a :: agents l := rfl

theorem agents_perm {l l' : List (Slot T)} (h : l.Perm l') : (agents l).Perm (agents l') :=
  h.filterMap _

theorem mem_agents {l : List (Slot T)} {a : Agent T} : a ∈ agents l ↔ Slot.agent a ∈ l := by
  unfold agents
  rw [List.mem_filterMap]
  constructor
  · rintro ⟨s, hs, h⟩
    cases s with
    | infty => simp at h
    | agent b => simp at h; subst h; exact hs
  · intro h; exact ⟨_, h, rfl⟩

/-- A heap of agents with exactly one sentinel. -/
structure HeapOK (l : List (Slot T)) : Prop where
  heap : IsHeap Slot.time l
  one : l.length = (agents l).length + 1

theorem HeapOK.single : HeapOK ([.infty] : List (Slot T)) :=
  ⟨isHeap_singleton _ _, rfl⟩

theorem headTime_le {l : List (Slot T)} (h : IsHeap Slot.time l) :
    ∀ s ∈ l, headTime l ≤ s.time := by
  intro s hs
  cases l with
  | nil => simp at hs
  | cons x l => exact h.head_le s hs

theorem HeapOK.le {l : List (Slot T)} (h : HeapOK l) : ∀ a ∈ agents l, headTime l ≤ a.time :=
  fun a ha => headTime_le h.heap (.agent a) (mem_agents.mp ha)

theorem HeapOK.attained {l : List (Slot T)} (_h : HeapOK l) :
    headTime l = ⊤ ∨ ∃ a ∈ agents l, a.time = headTime l := by
  cases l with
  | nil => exact .inl rfl
  | cons x l =>
    cases x with
    | infty => exact .inl rfl
    | agent a => exact .inr ⟨a, by simp, rfl⟩

theorem HeapOK.top_of_nil {l : List (Slot T)} (h : HeapOK l) (hn : agents l = []) :
    headTime l = ⊤ := by
  rcases h.attained with h' | ⟨a, ha, -⟩
  · exact h'
  · rw [hn] at ha; simp at ha

theorem HeapOK.push {l : List (Slot T)} (h : HeapOK l) (a : Agent T) :
    ∃ l', heappush Slot.time l (.agent a) = some l' ∧ HeapOK l' ∧
      (agents l').Perm (a :: agents l) ∧ headTime l' = min a.time (headTime l) := by
  obtain ⟨l', h1, h2, h3⟩ := heappush_spec Slot.time l (.agent a) h.heap
  have hp : (agents l').Perm (a :: agents l) := agents_perm h2
  have hok : HeapOK l' := ⟨h3, by rw [h2.length_eq, hp.length_eq]; simp [h.one]⟩
  refine ⟨l', h1, hok, hp, ?_⟩
  apply le_antisymm
  · refine le_min (hok.le a (hp.mem_iff.mpr (by simp))) ?_
    cases l with
    | nil => exact le_top
    | cons x l => exact headTime_le h3 x (h2.mem_iff.mpr (by simp))
  · cases l' with
    | nil => simpa using h2.length_eq
    | cons x r =>
      have hx : x ∈ Slot.agent a :: l := h2.mem_iff.mp (by simp)
      rcases List.mem_cons.mp hx with rfl | hx
      · exact min_le_left _ _
      · exact (min_le_right _ _).trans (headTime_le h.heap x hx)

theorem HeapOK.pop' {l : List (Slot T)} (h : HeapOK l) (hlt : l.head? ≠ some .infty) :
    ∃ a l', heappop Slot.time l = some (.agent a, l') ∧ HeapOK l' ∧
      (agents l).Perm (a :: agents l') ∧ a.time = headTime l ∧
      (∀ b ∈ agents l, a.time ≤ b.time) ∧ l.head? = some (.agent a) := by
  cases l with
  | nil => have := h.one; simp at this
  | cons x l =>
    cases x with
    | infty => simp at hlt
    | agent a =>
      obtain ⟨l', h1, h2, h3⟩ := heappop_spec Slot.time (.agent a) l h.heap
      have hp := agents_perm h2
      refine ⟨a, l', h1, ⟨h3, ?_⟩, by simpa using hp.symm, rfl, fun b hb => h.le b hb, rfl⟩
      have := h.one
      simp at this
      rw [h2.length_eq, hp.length_eq]; omega

theorem HeapOK.pop {l : List (Slot T)} (h : HeapOK l) (hlt : headTime l < ⊤) :
    ∃ a l', heappop Slot.time l = some (.agent a, l') ∧ HeapOK l' ∧
      (agents l).Perm (a :: agents l') ∧ a.time = headTime l ∧
      (∀ b ∈ agents l, a.time ≤ b.time) ∧ l.head? = some (.agent a) := by
  apply h.pop'
  intro h0
  cases l with
  | nil => simp at h0
  | cons x l => simp at h0; subst h0; simp [headTime, Slot.time] at hlt

/-- The sentinel stays, so popping leaves later times. -/
theorem HeapOK.headTime_mono {l l' : List (Slot T)} (h : HeapOK l) (h' : HeapOK l') {a : Agent T}
    (hp : (agents l).Perm (a :: agents l')) : headTime l ≤ headTime l' := by
  rcases h'.attained with h0 | ⟨b, hb, h0⟩
  · rw [h0]; exact le_top
  · rw [← h0]; exact h.le b (hp.mem_iff.mpr (by simp [hb]))

/-- `headTime` depends on the agents only. -/
theorem HeapOK.headTime_congr {l l' : List (Slot T)} (h : HeapOK l) (h' : HeapOK l')
    (hp : (agents l).Perm (agents l')) : headTime l = headTime l' := by
  apply le_antisymm
  · rcases h'.attained with h0 | ⟨b, hb, h0⟩
    · rw [h0]; exact le_top
    · rw [← h0]; exact h.le b (hp.mem_iff.mpr hb)
  · rcases h.attained with h0 | ⟨b, hb, h0⟩
    · rw [h0]; exact le_top
    · rw [← h0]; exact h'.le b (hp.mem_iff.mp hb)

/-- The time of the next event. -/
def nextTime (s : QS T) : T := min (headTime s.arrivals) (headTime s.departures)

/-- The agent created by `_add_arrival()` in state `s`. -/
def newAgent (c : QCfg T) (s : QS T) : Agent T :=
  ⟨(c.edge.idx, s.oArrivals), c.arrivalF s.arrCalls s.currentT, 0, c.factory⟩

/-- Outcome of a call of `_add_arrival()` in state `s`: the list of created agents (at most one), the
new `_next_ct`, `_active` and call counter. -/
inductive AddOut (c : QCfg T) (s : QS T) : List (Agent T) → T → Bool → Nat → Prop
  | early : s.currentT < s.nextCt → AddOut c s [] s.nextCt s.active s.arrCalls
  | off : s.nextCt ≤ s.currentT → c.deactiveT ≤ c.arrivalF s.arrCalls s.currentT →
      AddOut c s [] (c.arrivalF s.arrCalls s.currentT) false (s.arrCalls + 1)
  | new : s.nextCt ≤ s.currentT → c.arrivalF s.arrCalls s.currentT < c.deactiveT →
      AddOut c s [newAgent c s] (c.arrivalF s.arrCalls s.currentT)
        (s.active && c.activeCap.lt ((s.oArrivals + 1 : Nat) : Int)) (s.arrCalls + 1)

theorem bump_time_eq (s : QS T) (arr : List (Slot T)) (h : s.time = nextTime s)
    (hle : headTime arr ≤ headTime s.arrivals) :
    (if headTime arr < headTime s.departures then headTime arr else s.time)
      = min (headTime arr) (headTime s.departures) := by
  split
  · rename_i h'; rw [min_eq_left h'.le]
  · rename_i h'
    rw [h, nextTime, min_eq_right (not_lt.mp h'), min_eq_right ((not_lt.mp h').trans hle)]

theorem addArrival_spec (c : QCfg T) (s : QS T) (hk : c.kind ≠ .null) (h : HeapOK s.arrivals) :
    ∃ arr τ ext ν act calls, AddOut c s ext ν act calls ∧ HeapOK arr ∧
      (agents arr).Perm (ext ++ agents s.arrivals) ∧
      (s.time = nextTime s → τ = min (headTime arr) (headTime s.departures)) ∧
      addArrival c s = .ok { s with
        arrivals := arr, time := τ, nextCt := ν, active := act, arrCalls := calls
        numTotal := s.numTotal + ext.length
        oArrivals := s.oArrivals + ext.length
        created := s.created ++ ext.map fun a => (a.id, a.time) } := by
  unfold addArrival
  rw [if_neg hk]
  by_cases h1 : s.nextCt ≤ s.currentT
  · rw [if_pos h1]
    simp only
    by_cases h2 : c.deactiveT ≤ c.arrivalF s.arrCalls s.currentT
    · rw [if_pos h2]
      exact ⟨s.arrivals, s.time, [], _, _, _, .off h1 h2, h, by simp, fun h => h, by simp⟩
    · rw [if_neg h2]
      obtain ⟨l', g1, g2, g3, g4⟩ := h.push (newAgent c s)
      have g1' := g1
      simp only [newAgent] at g1'
      rw [g1']
      refine ⟨l', if headTime l' < headTime s.departures then headTime l' else s.time,
        [newAgent c s], _, _, _, .new h1 (not_le.mp h2), g2, by simpa using g3, ?_, ?_⟩
      · intro h; exact bump_time_eq s l' h (by rw [g4]; exact min_le_right _ _)
      · simp only [bumpTime]
        cases hc : c.activeCap.lt ((s.oArrivals + 1 : Nat) : Int) <;>
          cases ha : s.active <;> simp [newAgent]
  · rw [if_neg h1]
    refine ⟨s.arrivals, if headTime s.arrivals < headTime s.departures then headTime s.arrivals
      else s.time, [], _, _, _, .early (not_le.mp h1), h, by simp, ?_, ?_⟩
    · intro h; exact bump_time_eq s _ h le_rfl
    · simp [bumpTime]

theorem queueAction_of_ne (c : QCfg T) (s : QS T) (a : Agent T) (n : Nat) (hk : c.kind ≠ .resource) :
    queueAction c s a n = ({ s with log := s.log ++ [(a.id, n)] }, a) := by
  unfold queueAction
  cases h : c.kind <;> simp_all

theorem updateTime_time (s : QS T) : (updateTime s).time = nextTime s := by
  simp only [updateTime, nextTime]
  split
  · rename_i h; rw [min_eq_left h.le]
  · rename_i h; rw [min_eq_right (not_lt.mp h)]

theorem updateTime_eq (s : QS T) : updateTime s = { s with time := nextTime s } := by
  rw [← updateTime_time]; rfl

/-- What `_service_from_queue` does. -/
theorem serviceFromQueue_spec (c : QCfg T) (s : QS T) (hk : c.kind ≠ .resource)
    (h : HeapOK s.departures) (a : Agent T) (rest : List (Agent T)) (hq : s.queue = a :: rest) :
    ∃ deps, HeapOK deps ∧
      (agents deps).Perm ({ a with time := c.serviceF s.svcCalls s.currentT } :: agents s.departures) ∧
      serviceFromQueue c s = .ok { s with
        queue := rest
        departures := deps
        svcCalls := s.svcCalls + 1
        log := s.log ++ [(a.id, 1)]
        data := if s.collectData then s.data.modify a.id fun r => { r with start := s.currentT }
                else s.data } := by
  obtain ⟨deps, g1, g2, g3, -⟩ := h.push { a with time := c.serviceF s.svcCalls s.currentT }
  refine ⟨deps, g2, g3, ?_⟩
  unfold serviceFromQueue
  rw [hq]
  simp only [queueAction_of_ne _ _ _ _ hk]
  cases hc : s.collectData <;> simp [g1]

/-- What a departure event does (classes other than ResourceQueue). -/
structure DepSpec (c : QCfg T) (s s' : QS T) (a : Agent T) : Prop where
  time_eq : a.time = headTime s.departures
  currentT : s'.currentT = a.time
  arrivals : s'.arrivals = s.arrivals
  ok : HeapOK s'.departures
  numSystem : s'.numSystem = s.numSystem - 1
  numTotal : s'.numTotal = s.numTotal - 1
  numDepartures : s'.numDepartures = s.numDepartures + 1
  numServers : s'.numServers = s.numServers
  collectData : s'.collectData = s.collectData
  numArrivals : s'.numArrivals = s.numArrivals
  oArrivals : s'.oArrivals = s.oArrivals
  created : s'.created = s.created
  active : s'.active = s.active
  nextCt : s'.nextCt = s.nextCt
  numBlocked : s'.numBlocked = s.numBlocked
  lost : s'.lost = s.lost
  overMax : s'.overMax = s.overMax
  arrCalls : s'.arrCalls = s.arrCalls
  time : s'.time = nextTime s'
  served : ∃ deps, (agents s.departures).Perm (a :: agents deps) ∧ HeapOK deps ∧
    ((∃ b rest, s.queue = b :: rest ∧ s.numServers.lt (s.numSystem - 1 - s.queue.length) = true ∧
        s'.queue = rest ∧ s'.svcCalls = s.svcCalls + 1 ∧
        (agents s'.departures).Perm
          ({ b with time := c.serviceF s.svcCalls a.time } :: agents deps) ∧
        s'.log = s.log ++ [(b.id, 1), (a.id, 2)] ∧
        s'.data = (if s.collectData then
          (s.data.modify a.id fun r => { r with dep := a.time }).modify b.id
            fun r => { r with start := a.time }
          else s.data)) ∨
      ((s.queue = [] ∨ s.numServers.lt (s.numSystem - 1 - s.queue.length) = false) ∧
        s'.queue = s.queue ∧ s'.svcCalls = s.svcCalls ∧ s'.departures = deps ∧
        s'.log = s.log ++ [(a.id, 2)] ∧
        s'.data = (if s.collectData then
          s.data.modify a.id fun r => { r with dep := a.time } else s.data)))

theorem departEvent_spec (c : QCfg T) (s : QS T) (hk : c.kind ≠ .resource)
    (hd : HeapOK s.departures) (hlt : headTime s.departures < ⊤) :
    ∃ s' a, departEvent c s = .ok (s', some a) ∧ DepSpec c s s' a ∧
      s.departures.head? = some (.agent a) := by
  obtain ⟨a, deps, h1, h2, h3, h4, -, hhead⟩ := hd.pop hlt
  unfold departEvent
  rw [h1]
  simp only
  by_cases hq : 0 < s.queue.length ∧ s.numServers.lt (s.numSystem - 1 - s.queue.length) = true
  · obtain ⟨b, rest, hqq⟩ : ∃ b rest, s.queue = b :: rest := by
      rcases hqq : s.queue with _ | ⟨b, rest⟩
      · rw [hqq] at hq; simp at hq
      · exact ⟨b, rest, rfl⟩
    set s1 : QS T := { s with
      departures := deps
      currentT := a.time
      numTotal := s.numTotal - 1
      numSystem := s.numSystem - 1
      numDepartures := s.numDepartures + 1
      data := if s.collectData then s.data.modify a.id fun r => { r with dep := a.time }
              else s.data } with hs1
    obtain ⟨deps', k1, k2, k3⟩ := serviceFromQueue_spec c s1 hk h2 b rest hqq
    have e1 : (if s.collectData = true then
        { s with
          departures := deps, currentT := a.time, numTotal := s.numTotal - 1,
          numSystem := s.numSystem - 1, numDepartures := s.numDepartures + 1,
          data := s.data.modify a.id fun r => { r with dep := a.time } }
        else { s with
          departures := deps, currentT := a.time, numTotal := s.numTotal - 1,
          numSystem := s.numSystem - 1, numDepartures := s.numDepartures + 1 }) = s1 := by
      rw [hs1]; cases s.collectData <;> simp
    rw [e1]
    have e2 : (0 < s1.queue.length ∧ s1.numServers.lt (s1.numSystem - s1.queue.length) = true) := by
      simpa [hs1] using hq
    rw [if_pos e2, k3]
    simp only [queueAction_of_ne _ _ _ _ hk]
    refine ⟨_, a, rfl, ?_, hhead⟩
    constructor <;> try rfl
    · exact h4
    · exact k1
    · exact updateTime_time _
    · refine ⟨deps, h3, h2, .inl ⟨b, rest, hqq, hq.2, rfl, rfl, k2, ?_, ?_⟩⟩
      · simp [updateTime, hs1]
      · simp only [updateTime, hs1]
        cases s.collectData <;> simp
  · set s1 : QS T := { s with
        departures := deps
        currentT := a.time
        numTotal := s.numTotal - 1
        numSystem := s.numSystem - 1
        numDepartures := s.numDepartures + 1
        data := if s.collectData then s.data.modify a.id fun r => { r with dep := a.time }
                else s.data } with hs1
    have e1 : (if s.collectData = true then
          { s with
            departures := deps, currentT := a.time, numTotal := s.numTotal - 1,
            numSystem := s.numSystem - 1, numDepartures := s.numDepartures + 1,
            data := s.data.modify a.id fun r => { r with dep := a.time } }
          else { s with
            departures := deps, currentT := a.time, numTotal := s.numTotal - 1,
            numSystem := s.numSystem - 1, numDepartures := s.numDepartures + 1 }) = s1 := by
      rw [hs1]; cases s.collectData <;> simp
    rw [e1]
    have e2 : ¬ (0 < s1.queue.length ∧ s1.numServers.lt (s1.numSystem - s1.queue.length) = true) := by
      simpa [hs1] using hq
    rw [if_neg e2]
    simp only [queueAction_of_ne _ _ _ _ hk]
    refine ⟨_, a, rfl, ?_, hhead⟩
    constructor <;> try rfl
    · exact h4
    · exact h2
    · exact updateTime_time _
    · refine ⟨deps, h3, h2, .inr ⟨?_, rfl, rfl, rfl, rfl, rfl⟩⟩
      by_cases hq0 : s.queue = []
      · exact .inl hq0
      · right
        have : 0 < s.queue.length := by
          cases hqq : s.queue with
          | nil => exact absurd hqq hq0
          | cons => simp
        cases hx : s.numServers.lt (s.numSystem - 1 - s.queue.length) with
        | false => rfl
        | true => exact absurd ⟨this, hx⟩ hq

/-- The outside-arrival part of an arrival event: `_add_arrival()` is called (at time `t`) only if the
queue is active. -/
inductive ExtOut (c : QCfg T) (s : QS T) (t : T) : List (Agent T) → T → Bool → Nat → Prop
  | inactive : s.active = false → ExtOut c s t [] s.nextCt false s.arrCalls
  | early : s.active = true → t < s.nextCt → ExtOut c s t [] s.nextCt true s.arrCalls
  | off : s.active = true → s.nextCt ≤ t → c.deactiveT ≤ c.arrivalF s.arrCalls t →
      ExtOut c s t [] (c.arrivalF s.arrCalls t) false (s.arrCalls + 1)
  | new : s.active = true → s.nextCt ≤ t → c.arrivalF s.arrCalls t < c.deactiveT →
      ExtOut c s t [⟨(c.edge.idx, s.oArrivals), c.arrivalF s.arrCalls t, 0, c.factory⟩]
        (c.arrivalF s.arrCalls t) (c.activeCap.lt ((s.oArrivals + 1 : Nat) : Int)) (s.arrCalls + 1)

/-- The state of the outside stream after an arrival event at time `t`. -/
structure ExtSpec (c : QCfg T) (s s' : QS T) (t : T) (rest : List (Slot T)) : Prop where
  ext : ∃ ext, ExtOut c s t ext s'.nextCt s'.active s'.arrCalls ∧
    (agents s'.arrivals).Perm (ext ++ agents rest) ∧
    s'.oArrivals = s.oArrivals + ext.length ∧
    s'.created = s.created ++ ext.map fun a => (a.id, a.time)

/-- What an admitted arrival does (classes other than ResourceQueue, NullQueue). -/
structure ArrSpec (c : QCfg T) (s s' : QS T) (a : Agent T) (rest : List (Slot T)) : Prop where
  perm : (agents s.arrivals).Perm (a :: agents rest)
  restOk : HeapOK rest
  time_eq : a.time = headTime s.arrivals
  currentT : s'.currentT = a.time
  okA : HeapOK s'.arrivals
  okD : HeapOK s'.departures
  numSystem : s'.numSystem = s.numSystem + 1
  numTotal : s'.numTotal = s.numTotal + (s'.oArrivals - s.oArrivals : Int)
  numDepartures : s'.numDepartures = s.numDepartures
  numServers : s'.numServers = s.numServers
  collectData : s'.collectData = s.collectData
  numArrivals : s'.numArrivals = s.numArrivals + 1
  numBlocked : s'.numBlocked = s.numBlocked
  lost : s'.lost = s.lost
  overMax : s'.overMax = s.overMax
  time : s'.time = nextTime s'
  ext : ExtSpec c s s' a.time rest
  served :
    (s.numServers.le (s.numSystem + 1) = true ∧ s'.queue = s.queue ∧
      s'.svcCalls = s.svcCalls + 1 ∧
      (agents s'.departures).Perm
        ({ a with time := c.serviceF s.svcCalls a.time } :: agents s.departures) ∧
      s'.log = s.log ++ [(a.id, 0), (a.id, 1)] ∧
      s'.data = (if s.collectData then
        (s.data.append a.id ⟨a.time, 0, 0, s.queue.length, s.numSystem + 1⟩).modify a.id
          fun r => { r with start := a.time } else s.data)) ∨
    (s.numServers.le (s.numSystem + 1) = false ∧ s'.queue = s.queue ++ [a] ∧
      s'.svcCalls = s.svcCalls ∧ s'.departures = s.departures ∧
      s'.log = s.log ++ [(a.id, 0)] ∧
      s'.data = (if s.collectData then
        s.data.append a.id ⟨a.time, 0, 0, s.queue.length + 1, s.numSystem + 1⟩ else s.data))

/-- The optional call of `_add_arrival()` in an arrival event. -/
theorem extPart_spec (c : QCfg T) (s : QS T) (hk : c.kind ≠ .null) (h : HeapOK s.arrivals) :
    ∃ arr τ ext ν act calls, ExtOut c s s.currentT ext ν act calls ∧ HeapOK arr ∧
      (agents arr).Perm (ext ++ agents s.arrivals) ∧
      (if s.active then addArrival c s else .ok s) = .ok { s with
        arrivals := arr, time := τ, nextCt := ν, active := act, arrCalls := calls
        numTotal := s.numTotal + ext.length
        oArrivals := s.oArrivals + ext.length
        created := s.created ++ ext.map fun a => (a.id, a.time) } := by
  cases ha : s.active with
  | false =>
    refine ⟨s.arrivals, s.time, [], s.nextCt, false, s.arrCalls, .inactive ha, h, by simp, ?_⟩
    simp [← ha]
  | true =>
    obtain ⟨arr, τ, ext, ν, act, calls, h1, h2, h3, -, h4⟩ := addArrival_spec c s hk h
    refine ⟨arr, τ, ext, ν, act, calls, ?_, h2, h3, by simp [h4]⟩
    cases h1 with
    | early h => rw [ha]; exact .early ha h
    | off h h' => exact .off ha h h'
    | new h h' => rw [ha, Bool.true_and]; exact .new ha h h'

theorem arriveEvent_spec (c : QCfg T) (s : QS T) (hk : c.kind ≠ .resource) (hk' : c.kind ≠ .null)
    (hA : HeapOK s.arrivals) (hD : HeapOK s.departures) (hlt : headTime s.arrivals < ⊤) :
    ∃ s' a rest, arriveEvent c s = .ok (s', none) ∧ ArrSpec c s s' a rest ∧
      s.arrivals.head? = some (.agent a) := by
  obtain ⟨a, rest, h1, h2, h3, h4, -, hhead⟩ := hA.pop hlt
  obtain ⟨arr, τ, ext, ν, act, calls, g1, g2, g3, g4⟩ :=
    extPart_spec c { s with arrivals := rest, currentT := a.time } hk' h2
  have g1' : ExtOut c s a.time ext ν act calls := by
    cases g1 with
    | inactive h => exact .inactive h
    | early h h' => exact .early h h'
    | off h h' h'' => exact .off h h' h''
    | new h h' h'' => exact .new h h' h''
  unfold arriveEvent
  rw [h1]
  simp only at g4 ⊢
  rw [g4]
  simp only [queueAction_of_ne _ _ _ _ hk]
  cases hle : s.numServers.le (s.numSystem + 1) with
  | true =>
    obtain ⟨deps, k1, k2, k3, -⟩ := hD.push { a with time := c.serviceF s.svcCalls a.time }
    cases hc : s.collectData with
    | true =>
      simp only [hle, if_true, k1]
      refine ⟨_, a, rest, rfl, ?_, hhead⟩
      constructor <;> try rfl
      · exact h3
      · exact h2
      · exact h4
      · exact g2
      · exact k2
      · simp only [updateTime]; push_cast; omega
      · simp only [updateTime]; exact hc.symm
      · exact updateTime_time _
      · exact ⟨ext, g1', g3, rfl, rfl⟩
      · left
        refine ⟨by assumption, rfl, rfl, k3, by simp [updateTime], by simp [updateTime, hc]⟩
    | false =>
      simp only [hle, if_true, Bool.false_eq_true, if_false, k1]
      refine ⟨_, a, rest, rfl, ?_, hhead⟩
      constructor <;> try rfl
      · exact h3
      · exact h2
      · exact h4
      · exact g2
      · exact k2
      · simp only [updateTime]; push_cast; omega
      · simp only [updateTime]; exact hc.symm
      · exact updateTime_time _
      · exact ⟨ext, g1', g3, rfl, rfl⟩
      · left
        refine ⟨by assumption, rfl, rfl, k3, by simp [updateTime], by simp [updateTime, hc]⟩
  | false =>
    cases hc : s.collectData with
    | true =>
      simp only [hle, if_true, Bool.false_eq_true, if_false]
      refine ⟨_, a, rest, rfl, ?_, hhead⟩
      constructor <;> try rfl
      · exact h3
      · exact h2
      · exact h4
      · exact g2
      · exact hD
      · simp only [updateTime]; push_cast; omega
      · simp only [updateTime]; exact hc.symm
      · exact updateTime_time _
      · exact ⟨ext, g1', g3, rfl, rfl⟩
      · right
        refine ⟨by assumption, rfl, rfl, rfl, by simp [updateTime], by simp [updateTime, hc]⟩
    | false =>
      simp only [hle, if_true, Bool.false_eq_true, if_false]
      refine ⟨_, a, rest, rfl, ?_, hhead⟩
      constructor <;> try rfl
      · exact h3
      · exact h2
      · exact h4
      · exact g2
      · exact hD
      · simp only [updateTime]; push_cast; omega
      · simp only [updateTime]; exact hc.symm
      · exact updateTime_time _
      · exact ⟨ext, g1', g3, rfl, rfl⟩
      · right
        refine ⟨by assumption, rfl, rfl, rfl, by simp [updateTime], by simp [updateTime, hc]⟩

/-- What a blocked arrival does. -/
structure BlockSpec (c : QCfg T) (s s' : QS T) (a : Agent T) (rest : List (Slot T)) : Prop where
  perm : (agents s.arrivals).Perm (a :: agents rest)
  restOk : HeapOK rest
  time_eq : a.time = headTime s.arrivals
  currentT : s'.currentT = a.time
  okA : HeapOK s'.arrivals
  departures : s'.departures = s.departures
  queue : s'.queue = s.queue
  log : s'.log = s.log
  svcCalls : s'.svcCalls = s.svcCalls
  numSystem : s'.numSystem = s.numSystem
  numTotal : s'.numTotal = s.numTotal - 1 + (s'.oArrivals - s.oArrivals : Int)
  numDepartures : s'.numDepartures = s.numDepartures
  numServers : s'.numServers = s.numServers
  collectData : s'.collectData = s.collectData
  numArrivals : s'.numArrivals = s.numArrivals
  numBlocked : s'.numBlocked = s.numBlocked + 1
  lost : s'.lost = s.lost ++ [{ a with blocked := a.blocked + 1 }]
  overMax : s'.overMax = s.overMax
  time : s'.time = nextTime s'
  ext : ExtSpec c s s' a.time rest
  data : s'.data = (if s.collectData then
      s.data.append a.id ⟨a.time, 0, 0, s.queue.length, s.numSystem⟩ else s.data)

theorem blockEvent_spec (c : QCfg T) (s : QS T) (hk' : c.kind ≠ .null)
    (hA : HeapOK s.arrivals) (hlt : headTime s.arrivals < ⊤) :
    ∃ s' a rest, blockEvent c s = .ok (s', none) ∧ BlockSpec c s s' a rest ∧
      s.arrivals.head? = some (.agent a) := by
  obtain ⟨a, rest, h1, h2, h3, h4, -, hhead⟩ := hA.pop hlt
  obtain ⟨arr, τ, ext, ν, act, calls, g1, g2, g3, g4⟩ :=
    extPart_spec c { s with
      numBlocked := s.numBlocked + 1
      numTotal := s.numTotal - 1
      arrivals := rest
      lost := s.lost ++ [{ a with blocked := a.blocked + 1 }]
      currentT := a.time } hk' h2
  have g1' : ExtOut c s a.time ext ν act calls := by
    cases g1 with
    | inactive h => exact .inactive h
    | early h h' => exact .early h h'
    | off h h' h'' => exact .off h h' h''
    | new h h' h'' => exact .new h h' h''
  unfold blockEvent
  rw [h1]
  simp only at g4 ⊢
  rw [g4]
  cases hc : s.collectData with
  | true =>
    refine ⟨_, a, rest, rfl, ?_, hhead⟩
    constructor <;> try rfl
    · exact h3
    · exact h2
    · exact h4
    · exact g2
    · simp only [updateTime]; push_cast; omega
    · simp only [updateTime]; exact hc.symm
    · exact updateTime_time _
    · exact ⟨ext, g1', g3, rfl, rfl⟩
    · simp [updateTime, hc]
  | false =>
    refine ⟨_, a, rest, rfl, ?_, hhead⟩
    constructor <;> try rfl
    · exact h3
    · exact h2
    · exact h4
    · exact g2
    · simp only [updateTime]; push_cast; omega
    · simp only [updateTime]; exact hc.symm
    · exact updateTime_time _
    · exact ⟨ext, g1', g3, rfl, rfl⟩
    · simp [updateTime, hc]

end Verif
