import Verif.Props.Resource
import Verif.QueueInv3

/-! # Property C106: what a ResourceQueue records -/

set_option linter.unusedSectionVars false

namespace Verif.ResourceSpec

open QueueSpec

section

variable {T : Type*} [LinearOrder T] [OrderTop T] [Zero T]

/-- Everything that matters for the data stays. -/
structure SameData (s s' : QS T) : Prop where
  data : s'.data = s.data
  collectData : s'.collectData = s.collectData
  queue : s'.queue = s.queue
  numSystem : s'.numSystem = s.numSystem

theorem addArrival_same {c : QCfg T} {s s' : QS T} (h : addArrival c s = .ok s') :
    SameData s s' ∧ s'.numServers = s.numServers := by
  unfold addArrival at h
  split at h
  · cases h; exact ⟨⟨rfl, rfl, rfl, rfl⟩, rfl⟩
  · split at h
    · simp only at h
      split at h
      · cases h; exact ⟨⟨rfl, rfl, rfl, rfl⟩, rfl⟩
      · split at h
        · cases h
        · cases h
          unfold bumpTime
          split <;> exact ⟨⟨rfl, rfl, rfl, rfl⟩, rfl⟩
    · cases h; exact ⟨⟨rfl, rfl, rfl, rfl⟩, rfl⟩

theorem queueAction_same (c : QCfg T) (s : QS T) (a : Agent T) (st : Nat) :
    SameData s (queueAction c s a st).1 ∧ (queueAction c s a st).2.id = a.id ∧ (queueAction c s a st).2.time = a.time := by
  unfold queueAction
  split
  · split
    · exact ⟨⟨rfl, rfl, rfl, rfl⟩, rfl, rfl⟩
    · simp only
      split <;> exact ⟨⟨rfl, rfl, rfl, rfl⟩, rfl, rfl⟩
  · exact ⟨⟨rfl, rfl, rfl, rfl⟩, rfl, rfl⟩

theorem arriveEvent_data {c : QCfg T} {s s' : QS T} {r : Option (Agent T)} (hcol : s.collectData = true) {a : Agent T}
    {arr : List (Slot T)} (hp : heappop Slot.time s.arrivals = some (.agent a, arr)) (h : arriveEvent c s = .ok (s', r)) :
    s'.numSystem = s.numSystem + 1 ∧
    ((s'.queue = s.queue ∧ ∀ y, s'.data.rows y = if y = a.id then s.data.rows a.id ++ [⟨a.time, a.time, 0, s.queue.length +
        (if s.numServers.le (s.numSystem + 1) then 0 else 1), s.numSystem + 1⟩] else s.data.rows y) ∨
     ((∃ a', a'.id = a.id ∧ s'.queue = s.queue ++ [a']) ∧ ∀ y, s'.data.rows y = if y = a.id then s.data.rows a.id ++
        [⟨a.time, 0, 0, s.queue.length + (if s.numServers.le (s.numSystem + 1) then 0 else 1), s.numSystem + 1⟩]
        else s.data.rows y)) := by
  unfold arriveEvent at h
  rw [hp] at h
  simp only at h
  split at h
  · cases h
  · rename_i s1 hs1
    have k : SameData s s1 ∧ s1.numServers = s.numServers := by
      split at hs1
      · obtain ⟨h1, h2⟩ := addArrival_same hs1
        exact ⟨⟨h1.data, h1.collectData, h1.queue, h1.numSystem⟩, h2⟩
      · cases hs1; exact ⟨⟨rfl, rfl, rfl, rfl⟩, rfl⟩
    obtain ⟨⟨k1, k2, k3, k4⟩, k5⟩ := k
    have k2' : s1.collectData = true := k2.trans hcol
    simp only [if_pos k2'] at h
    generalize hq : queueAction c _ a 0 = qa at h
    obtain ⟨s2, a2⟩ := qa
    have e := queueAction_same c { s1 with
      numSystem := s1.numSystem + 1, numArrivals := s1.numArrivals + 1,
      data := s1.data.append a.id ⟨a.time, 0, 0, s1.queue.length + (if s1.numServers.le (s1.numSystem + 1) then 0 else 1),
        s1.numSystem + 1⟩ } a 0
    rw [show queueAction c { s1 with
      numSystem := s1.numSystem + 1, numArrivals := s1.numArrivals + 1,
      data := s1.data.append a.id ⟨a.time, 0, 0, s1.queue.length + (if s1.numServers.le (s1.numSystem + 1) then 0 else 1),
        s1.numSystem + 1⟩ } a 0 = (s2, a2) by rw [← hq]] at e
    obtain ⟨⟨e1, e2, e3, e4⟩, e5, e6⟩ := e
    simp only at e1 e2 e3 e4 e5 e6 h
    rw [k1, k3, k4, k5] at e1
    rw [k3] at e3
    rw [k4] at e4
    split at h
    · have e2' : s2.collectData = true := e2.trans k2'
      simp only [if_pos e2'] at h
      generalize hq' : queueAction c _ _ 1 = qb at h
      obtain ⟨s3, a3⟩ := qb
      have f := queueAction_same c { s2 with
        data := s2.data.modify a2.id fun r => { r with start := a2.time }, svcCalls := s2.svcCalls + 1 }
        { a2 with time := c.serviceF s2.svcCalls a2.time } 1
      rw [show queueAction c { s2 with
        data := s2.data.modify a2.id fun r => { r with start := a2.time }, svcCalls := s2.svcCalls + 1 }
        { a2 with time := c.serviceF s2.svcCalls a2.time } 1 = (s3, a3) by rw [← hq']] at f
      obtain ⟨⟨f1, f2, f3, f4⟩, -⟩ := f
      simp only at f1 f2 f3 f4 h
      split at h
      · cases h
      · cases h
        refine ⟨f4.trans e4, .inl ⟨f3.trans e3, fun y => ?_⟩⟩
        show s3.data.rows y = _
        rw [f1, e1, e5, e6, Data.rows_modify, Data.rows_append, Data.rows_append]
        by_cases hy : y = a.id
        · simp only [hy, if_true, modLast_snoc]
        · simp only [hy, if_false]
    · cases h
      refine ⟨e4, .inr ⟨⟨a2, e5, by rw [← e3]; rfl⟩, fun y => ?_⟩⟩
      show s2.data.rows y = _
      rw [e1, Data.rows_append]

theorem blockEvent_data {c : QCfg T} {s s' : QS T} {r : Option (Agent T)} (hcol : s.collectData = true) {a : Agent T}
    {arr : List (Slot T)} (hp : heappop Slot.time s.arrivals = some (.agent a, arr)) (h : blockEvent c s = .ok (s', r)) :
    s'.numSystem = s.numSystem ∧ s'.queue = s.queue ∧ ∀ y, s'.data.rows y = if y = a.id then
      s.data.rows a.id ++ [⟨a.time, 0, 0, s.queue.length, s.numSystem⟩] else s.data.rows y := by
  unfold blockEvent at h
  rw [hp] at h
  simp only at h
  split at h
  · cases h
  · rename_i s1 hs1
    have k : SameData s s1 := by
      split at hs1
      · obtain ⟨h1, -⟩ := addArrival_same hs1
        exact ⟨h1.data, h1.collectData, h1.queue, h1.numSystem⟩
      · cases hs1; exact ⟨rfl, rfl, rfl, rfl⟩
    obtain ⟨k1, k2, k3, k4⟩ := k
    rw [if_pos (k2.trans hcol)] at h
    cases h
    refine ⟨k4, k3, fun y => ?_⟩
    show (Data.append _ _ _).rows y = _
    rw [Data.rows_append, k1, k3, k4]

/-- C106: every arrival at a ResourceQueue that collects data adds one row to the data of the agent and changes no
other. Its first column is the time of arrival. If the agent leaves a resource, service start and departure are this time
too, and the last columns the numbers waiting and in the system. If it is turned away, start and departure are 0. If it is
admitted, the last column counts it; the fourth counts it if there are fewer servers than agents before it acts on the
queue; the second is set if it is served at once. -/
theorem C106_arrival_row {c : QCfg T} (hk : c.kind = .resource) {b : Bool} {s s' : QS T} {r : Option (Agent T)}
    (h : Reach c b anyOp s) (hcol : s.collectData = true) {a : Agent T} (ha : s.arrivals.head? = some (.agent a))
    (hle : a.time ≤ headTime s.departures) (hfin : a.time < ⊤) (hr : nextEvent c s = .ok (s', r)) :
    ∃ row : Row T, (∀ y, s'.data.rows y = if y = a.id then s.data.rows a.id ++ [row] else s.data.rows y) ∧
      row.arr = a.time ∧
      ((∃ had, a.kind = .resource true had) → row = ⟨a.time, a.time, a.time, s.queue.length, s.numSystem⟩) ∧
      ((∀ had, a.kind ≠ .resource true had) → s'.numSystem = s.numSystem →
        row = ⟨a.time, 0, 0, s.queue.length, s.numSystem⟩) ∧
      (s'.numSystem ≠ s.numSystem → row.nsys = s.numSystem + 1 ∧ row.dep = 0 ∧
        row.nq = s.queue.length + (if s.numServers.le (s.numSystem + 1) then 0 else 1) ∧
        ((s'.queue = s.queue ∧ row.start = a.time) ∨ ((∃ a', a'.id = a.id ∧ s'.queue = s.queue ++ [a']) ∧ row.start = 0))) := by
  have hA := (h.baseR hk).okA
  have hht : headTime s.arrivals = a.time := by
    cases hs : s.arrivals with
    | nil => rw [hs] at ha; cases ha
    | cons x l => rw [hs] at ha; cases ha; rfl
  obtain ⟨a', rest, p1, -, -, -, -, p5⟩ := hA.pop (hht ▸ hfin)
  obtain rfl : a = a' := by rw [ha] at p5; simpa using p5
  have hnd : ¬ headTime s.departures < headTime s.arrivals := by rw [hht]; exact not_lt.mpr hle
  have hloss : (∀ had, a.kind ≠ .resource true had) → lossEvent c s = .ok (s', r) → ∃ row : Row T,
      (∀ y, s'.data.rows y = if y = a.id then s.data.rows a.id ++ [row] else s.data.rows y) ∧ row.arr = a.time ∧
      ((∃ had, a.kind = .resource true had) → row = ⟨a.time, a.time, a.time, s.queue.length, s.numSystem⟩) ∧
      ((∀ had, a.kind ≠ .resource true had) → s'.numSystem = s.numSystem →
        row = ⟨a.time, 0, 0, s.queue.length, s.numSystem⟩) ∧
      (s'.numSystem ≠ s.numSystem → row.nsys = s.numSystem + 1 ∧ row.dep = 0 ∧
        row.nq = s.queue.length + (if s.numServers.le (s.numSystem + 1) then 0 else 1) ∧
        ((s'.queue = s.queue ∧ row.start = a.time) ∨
          ((∃ a', a'.id = a.id ∧ s'.queue = s.queue ++ [a']) ∧ row.start = 0))) := by
    intro hno hl
    unfold lossEvent baseEvent at hl
    rw [if_neg hnd, if_pos (hht ▸ hfin)] at hl
    split at hl
    · rw [if_pos (hht ▸ hfin)] at hl
      obtain ⟨q1, ⟨q2, q3⟩ | ⟨q2, q3⟩⟩ := arriveEvent_data hcol p1 hl
      · exact ⟨_, q3, rfl, fun ⟨had, e⟩ => absurd e (hno had), fun _ e => by omega, fun _ => ⟨rfl, rfl, rfl, .inl ⟨q2, rfl⟩⟩⟩
      · exact ⟨_, q3, rfl, fun ⟨had, e⟩ => absurd e (hno had), fun _ e => by omega, fun _ => ⟨rfl, rfl, rfl, .inr ⟨q2, rfl⟩⟩⟩
    · obtain ⟨q1, q2, q3⟩ := blockEvent_data hcol p1 hl
      exact ⟨_, q3, rfl, fun ⟨had, e⟩ => absurd e (hno had), fun _ _ => rfl, fun e => absurd q1 e⟩
  unfold nextEvent resourceEvent at hr
  simp only [hk, ha] at hr
  split at hr
  · rename_i id t bl has had hh
    simp only [Option.some.injEq, Slot.agent.injEq] at hh
    rw [if_neg hnd, if_pos (hht ▸ hfin)] at hr
    split at hr
    · rename_i hhas
      unfold depositEvent at hr
      rw [p1] at hr
      simp only [resourceSetServers, hcol, if_true] at hr
      cases hr
      refine ⟨_, fun y => Data.rows_append _ _ _ _, rfl, fun _ => rfl, fun hno => absurd (by rw [hh, hhas]) (hno had), fun e => absurd rfl e⟩
    · rename_i hhas
      have hno : ∀ had', a.kind ≠ .resource true had' := by
        intro had' e
        rw [hh] at e
        simp only [AgentKind.resource.injEq] at e
        exact hhas e.1
      split at hr
      · exact hloss hno hr
      · unfold resourceBlock at hr
        rw [p1] at hr
        simp only [hcol, if_true] at hr
        cases hr
        exact ⟨_, fun y => Data.rows_append _ _ _ _, rfl, fun ⟨had', e⟩ => absurd e (hno had'), fun _ _ => rfl, fun e => absurd rfl e⟩
  · rename_i hno'
    refine hloss (fun had e => ?_) hr
    obtain ⟨id, t, bl, kind⟩ := a
    simp only at e
    subst e
    exact hno' id t bl true had rfl

/-- C106: a departure completes the last row of the agent with the time of departure; if a waiting agent is taken into
service, its last row gets this time as service start. Nothing else is recorded. -/
theorem C106_departure_row {c : QCfg T} (hk : c.kind = .resource) {b : Bool} {s s' : QS T} {r : Option (Agent T)}
    (h : Reach c b anyOp s) (hcol : s.collectData = true) {a : Agent T} (ha : s.departures.head? = some (.agent a))
    (hlt : a.time < headTime s.arrivals) (hr : nextEvent c s = .ok (s', r)) :
    (s'.queue = s.queue ∧ ∀ y, s'.data.rows y =
      if y = a.id then modLast (fun r => { r with dep := a.time }) (s.data.rows y) else s.data.rows y) ∨
    ∃ w, s.queue = w :: s'.queue ∧ ∀ y, w.id ≠ a.id → s'.data.rows y =
      if y = a.id then modLast (fun r => { r with dep := a.time }) (s.data.rows y)
      else if y = w.id then modLast (fun r => { r with start := a.time }) (s.data.rows y) else s.data.rows y := by
  have hD := (h.baseR hk).okD
  have hht : headTime s.departures = a.time := by
    cases hs : s.departures with
    | nil => rw [hs] at ha; cases ha
    | cons x l => rw [hs] at ha; cases ha; rfl
  obtain ⟨a', rest, p1, -, -, -, -, p5⟩ := hD.pop (hht ▸ hlt.trans_le le_top)
  obtain rfl : a = a' := by rw [ha] at p5; simpa using p5
  have hl : departEvent c s = .ok (s', r) := by
    have hl' : lossEvent c s = .ok (s', r) := by
      unfold nextEvent resourceEvent at hr
      simp only [hk] at hr
      split at hr
      · rwa [if_pos (hht ▸ hlt)] at hr
      · exact hr
    unfold lossEvent baseEvent at hl'
    rwa [if_pos (hht ▸ hlt), if_pos (hht ▸ hlt)] at hl'
  unfold departEvent at hl
  rw [p1] at hl
  simp only [hcol, if_true] at hl
  split at hl
  · cases hl
  · rename_i s1 hs1
    have fin : s'.queue = s1.queue ∧ s'.data = s1.data := by
      cases hl
      obtain ⟨⟨e1, -, e3, -⟩, -⟩ := queueAction_same c s1 a 2
      exact ⟨e3, e1⟩
    split at hs1
    · rename_i hq
      unfold serviceFromQueue at hs1
      split at hs1
      · cases hs1
      · rename_i w rest' hw
        simp only at hw
        simp only [if_true] at hs1
        split at hs1
        · cases hs1
        · cases hs1
          refine .inr ⟨w, ?_, fun y hne => ?_⟩
          · rw [fin.1]
            show s.queue = w :: (queueAction c _ _ 1).1.queue
            rw [(queueAction_same c _ _ 1).1.queue]; exact hw
          · rw [fin.2]
            show (queueAction c _ _ 1).1.data.rows y = _
            rw [(queueAction_same c _ _ 1).1.data]
            simp only [Data.rows_modify]
            by_cases h1 : y = a.id
            · simp [h1, Ne.symm hne]
            · by_cases h2 : y = w.id
              · simp [h2, hne]
              · simp [h1, h2]
    · cases hs1
      refine .inl ⟨fin.1, fun y => ?_⟩
      rw [fin.2]
      show (Data.modify _ _ _).rows y = _
      rw [Data.rows_modify]
      by_cases h1 : y = a.id
      · simp [h1]
      · simp [h1]

end

/-- F40: the row of a ResourceAgent that takes the last server on arrival says that nobody waits, though the agent itself
does: it has joined the line. -/
theorem C106_line_miscounted :
    let s := resOps (resDemo 1) true [.setActive, .setInactive]
    let s' := resOps (resDemo 1) true [.setActive, .setInactive, .next]
    Reach (resDemo 1) true anyOp s ∧ s.collectData = true ∧ nextEvent (resDemo 1) s = .ok (s', none) ∧
    s'.queue.map (·.id) = [(7, 0)] ∧ (s'.data.rows (7, 0)).map (fun r => (r.start, r.nq, r.nsys)) = [(0, 0, 1)] :=
  ⟨reachOps _ _ _ (by decide +kernel), by decide +kernel, rfl, by decide +kernel, by decide +kernel⟩

/-- The hypotheses of `C106_arrival_row` and `C106_departure_row` are met: an agent arrives at 10, is served at once and departs
at 11. -/
theorem C106_met :
    let s := resOps (resDemo 2) true [.setActive, .setInactive]
    let s1 := resOps (resDemo 2) true [.setActive, .setInactive, .next]
    let s2 := resOps (resDemo 2) true [.setActive, .setInactive, .next, .next]
    Reach (resDemo 2) true anyOp s ∧ s.collectData = true ∧ headTime s.arrivals = 10 ∧ headTime s.departures = ⊤ ∧
    Reach (resDemo 2) true anyOp s1 ∧ headTime s1.departures = 11 ∧ headTime s1.arrivals = ⊤ ∧
    s1.data.rows (7, 0) = [⟨10, 10, 0, 0, 1⟩] ∧ s2.data.rows (7, 0) = [⟨10, 10, 11, 0, 1⟩] :=
  ⟨reachOps _ _ _ (by decide +kernel), by decide +kernel, by decide +kernel, by decide +kernel,
    reachOps _ _ _ (by decide +kernel), by decide +kernel, by decide +kernel, by decide +kernel, by decide +kernel⟩

end Verif.ResourceSpec
