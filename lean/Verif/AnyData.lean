import Verif.AnyFacts

/-! # The rows that events write at queues of every class (proof support) -/

set_option linter.unusedSectionVars false
set_option linter.unusedSimpArgs false
set_option linter.unusedVariables false

namespace Verif

variable {T R : Type*} [LinearOrder T] [OrderTop T] [Zero T] [LinearOrder R] [Add R]

theorem heappop_head {α : Type*} {key : α → T} {l l' : List α} {x : α} (h : heappop key l = some (x, l')) :
    l.head? = some x := by
  unfold heappop at h
  split at h
  · simp at h
  · rename_i last hl
    obtain ⟨l0, rfl⟩ := List.getLast?_eq_some_iff.mp hl
    rw [List.dropLast_concat] at h
    split at h
    · simp at h; simp [h.1]
    · split at h
      · simp at h
      · simp at h; simp [h.1]

/-- What `queue_action` leaves alone. -/
theorem queueAction_same (c : QCfg T) (s : QS T) (a : Agent T) (st : Nat) :
    (queueAction c s a st).1.data = s.data ∧ (queueAction c s a st).1.queue = s.queue ∧
    (queueAction c s a st).1.collectData = s.collectData ∧ (queueAction c s a st).1.currentT = s.currentT ∧
    (queueAction c s a st).2.id = a.id ∧ (queueAction c s a st).2.time = a.time := by
  unfold queueAction
  simp only
  split
  · split
    · exact ⟨rfl, rfl, rfl, rfl, rfl, rfl⟩
    · split <;> exact ⟨rfl, rfl, rfl, rfl, rfl, rfl⟩
  · exact ⟨rfl, rfl, rfl, rfl, rfl, rfl⟩

theorem serviceFromQueue_data {c : QCfg T} {s s' : QS T} (hon : s.collectData = true)
    (h : serviceFromQueue c s = .ok s') :
    ∃ b rest, s.queue = b :: rest ∧ s'.queue = rest ∧ s'.collectData = true ∧
      s'.data = s.data.modify b.id fun r => { r with start := s.currentT } := by
  unfold serviceFromQueue at h
  split at h
  · simp at h
  · rename_i b rest hq
    simp only [hon, if_true] at h
    split at h
    · simp at h
    · simp only [Except.ok.injEq] at h
      refine ⟨b, rest, hq, ?_⟩
      rw [← h]
      simp only
      refine ⟨?_, ?_, ?_⟩
      · rw [(queueAction_same c _ _ 1).2.1]
      · rw [(queueAction_same c _ _ 1).2.2.1]
      · rw [(queueAction_same c _ _ 1).1]

/-- What a departure writes: the departing agent's row is closed and the row of the agent that starts is stamped. -/
theorem departEvent_data {c : QCfg T} {s s' : QS T} {a' : Agent T} (hon : s.collectData = true)
    (h : departEvent c s = .ok (s', some a')) :
    s'.collectData = true ∧
    ((s'.queue = s.queue ∧ s'.data = s.data.modify a'.id fun r => { r with dep := a'.time }) ∨
     ∃ b rest, s.queue = b :: rest ∧ s'.queue = rest ∧
      s'.data = (s.data.modify a'.id fun r => { r with dep := a'.time }).modify b.id
        fun r => { r with start := a'.time }) := by
  unfold departEvent at h
  split at h
  · simp at h
  · simp at h
  · rename_i a deps hp
    simp only [hon, if_true] at h
    split at h
    · simp at h
    · rename_i s1 h1
      simp only [Except.ok.injEq, Prod.mk.injEq, Option.some.injEq] at h
      obtain ⟨h2, h3⟩ := h
      have q := queueAction_same c s1 a 2
      rw [h3] at q
      obtain ⟨q1, q2, q3, q4, q5, q6⟩ := q
      rw [q5, q6]
      have e1 : s'.data = s1.data := by rw [← h2, ← q1]; rfl
      have e2 : s'.queue = s1.queue := by rw [← h2, ← q2]; rfl
      have e3 : s'.collectData = s1.collectData := by rw [← h2, ← q3]; rfl
      rw [e1, e2, e3]
      split at h1
      · obtain ⟨b, rest, g1, g2, g3, g4⟩ := serviceFromQueue_data rfl h1
        exact ⟨g3, .inr ⟨b, rest, g1, g2, g4⟩⟩
      · simp only [Except.ok.injEq] at h1
        rw [← h1]
        exact ⟨rfl, .inl ⟨rfl, rfl⟩⟩

theorem arriveEvent_none {c : QCfg T} {s s' : QS T} {r : Option (Agent T)} (h : arriveEvent c s = .ok (s', r)) :
    r = none := by
  unfold arriveEvent at h
  simp only at h
  repeat' split at h
  all_goals simp at h
  all_goals exact h.2.symm

theorem blockEvent_none {c : QCfg T} {s s' : QS T} {r : Option (Agent T)} (h : blockEvent c s = .ok (s', r)) :
    r = none := by
  unfold blockEvent at h
  simp only at h
  repeat' split at h
  all_goals simp at h
  all_goals exact h.2.symm

theorem baseEvent_some {c : QCfg T} {s s' : QS T} {a' : Agent T} (h : baseEvent c s = .ok (s', some a')) :
    departEvent c s = .ok (s', some a') := by
  unfold baseEvent at h
  split at h
  · exact h
  · split at h
    · exact absurd (arriveEvent_none h) (by simp)
    · simp at h

theorem lossEvent_some {c : QCfg T} {s s' : QS T} {a' : Agent T} (h : lossEvent c s = .ok (s', some a')) :
    departEvent c s = .ok (s', some a') := by
  unfold lossEvent at h
  split at h
  · exact baseEvent_some h
  · split at h
    · split at h
      · exact baseEvent_some h
      · exact absurd (blockEvent_none h) (by simp)
    · simp at h

/-- An agent comes out of the departure branch only. -/
theorem nextEvent_some {c : QCfg T} {s s' : QS T} {a' : Agent T} (h : nextEvent c s = .ok (s', some a')) :
    departEvent c s = .ok (s', some a') := by
  unfold nextEvent at h
  split at h
  · exact baseEvent_some h
  · exact lossEvent_some h
  · simp at h
  · unfold resourceEvent at h
    split at h
    · split at h
      · exact lossEvent_some h
      · split at h
        · split at h
          · unfold depositEvent at h
            repeat' split at h
            all_goals simp at h
          · split at h
            · exact lossEvent_some h
            · unfold resourceBlock at h
              repeat' split at h
              all_goals simp at h
        · simp at h
    · exact lossEvent_some h

theorem addArrival_data {c : QCfg T} {s s' : QS T} (h : (if s.active = true then addArrival c s else .ok s) = .ok s') :
    s'.data = s.data ∧ s'.queue = s.queue ∧ s'.collectData = s.collectData := by
  unfold addArrival bumpTime at h
  simp only at h
  repeat' split at h
  all_goals simp at h
  all_goals rw [← h]; exact ⟨rfl, rfl, rfl⟩

/-- What the admission of agent `a` writes. -/
theorem arriveEvent_data {c : QCfg T} {s s' : QS T} {a : Agent T} (hon : s.collectData = true)
    (hh : s.arrivals.head? = some (.agent a)) (h : arriveEvent c s = .ok (s', none)) :
    s'.collectData = true ∧ ∃ row : Row T, row.arr = a.time ∧ row.dep = 0 ∧
      s'.data.rows a.id = s.data.rows a.id ++ [row] ∧ (∀ y ≠ a.id, s'.data.rows y = s.data.rows y) ∧
      ((s'.queue = s.queue ∧ row.start = a.time) ∨ (s'.queue ≠ s.queue ∧ row.start = 0)) := by
  unfold arriveEvent at h
  split at h
  · simp at h
  · simp at h
  rename_i a0 rest hp
  have := heappop_head hp
  rw [hh] at this
  simp only [Option.some.injEq, Slot.agent.injEq] at this
  subst this
  simp only at h
  split at h
  · simp at h
  rename_i s0 h0
  obtain ⟨d1, d2, d3⟩ := addArrival_data (s := { s with arrivals := rest, currentT := a.time }) h0
  simp only at d1 d2 d3
  rw [hon] at d3
  simp only [d3, if_true] at h
  generalize hb : (if s0.numServers.le (s0.numSystem + 1) = true then 0 else 1 : Nat) = bb at h
  generalize hs1 : ({ s0 with
      numSystem := s0.numSystem + 1
      numArrivals := s0.numArrivals + 1
      collectData := true
      data := s0.data.append a.id ⟨a.time, 0, 0, s0.queue.length + bb, s0.numSystem + 1⟩ } : QS T) = s1 at h
  have f1 : s1.data = s.data.append a.id ⟨a.time, 0, 0, s0.queue.length + bb, s0.numSystem + 1⟩ := by
    rw [← hs1, ← d1]
  have f2 : s1.queue = s.queue := by rw [← hs1, ← d2]
  have f3 : s1.collectData = true := by rw [← hs1]
  obtain ⟨q1, q2, q3, q4, q5, q6⟩ := queueAction_same c s1 a 0
  split at h
  · simp only [q3, f3, if_true] at h
    split at h
    · simp at h
    · simp only [Except.ok.injEq, Prod.mk.injEq, and_true] at h
      generalize hs2 : (queueAction c s1 a 0).1 = s2 at *
      generalize ha2 : (queueAction c s1 a 0).2 = a2 at *
      have r := queueAction_same c { s2 with
        collectData := true
        data := s2.data.modify a2.id fun r => { r with start := a2.time }
        svcCalls := s2.svcCalls + 1 } { a2 with time := c.serviceF s2.svcCalls a2.time } 1
      obtain ⟨r1, r2, r3, -⟩ := r
      have e1 : s'.data = s2.data.modify a2.id fun r => { r with start := a2.time } := by rw [← h]; exact r1
      have e2 : s'.queue = s2.queue := by rw [← h]; exact r2
      have e3 : s'.collectData = true := by rw [← h]; exact r3
      refine ⟨e3, ⟨a.time, a.time, 0, s0.queue.length + bb, s0.numSystem + 1⟩, rfl, rfl, ?_, ?_,
        .inl ⟨by rw [e2, q2, f2], rfl⟩⟩
      · rw [e1, q1, q5, q6, f1, Data.rows_modify, if_pos rfl, Data.rows_append, if_pos rfl, modLast_snoc]
      · intro y hy
        rw [e1, q1, q5, q6, f1, Data.rows_modify, if_neg hy, Data.rows_append, if_neg hy]
  · simp only [Except.ok.injEq, Prod.mk.injEq, and_true] at h
    have e1 : s'.data = s1.data := by rw [← h, ← q1]; rfl
    have e2 : s'.queue = s.queue ++ [(queueAction c s1 a 0).2] := by rw [← h, ← f2, ← q2]; rfl
    have e3 : s'.collectData = s1.collectData := by rw [← h]; exact q3
    refine ⟨by rw [e3, f3], ⟨a.time, 0, 0, s0.queue.length + bb, s0.numSystem + 1⟩, rfl, rfl, ?_, ?_,
      .inr ⟨by rw [e2]; simp, rfl⟩⟩
    · rw [e1, f1, Data.rows_append, if_pos rfl]
    · intro y hy
      rw [e1, f1, Data.rows_append, if_neg hy]

/-- The admission of an agent at a ResourceQueue is that of `QueueServer.next_event`. -/
theorem nextEvent_arr {c : QCfg T} {s : QS T} {a : Agent T} (hk : c.kind = .resource)
    (h1 : headTime s.arrivals ≤ headTime s.departures) (h2 : headTime s.arrivals < ⊤)
    (h3 : (s.numServers.add c.buffer).lt s.numSystem = true) (hh : s.arrivals.head? = some (.agent a))
    (h4 : ∀ has had, a.kind = .resource has had → has = false ∧ s.numServers.lt s.numSystem = true) :
    nextEvent c s = arriveEvent c s := by
  unfold nextEvent
  rw [hk]
  have hl : lossEvent c s = arriveEvent c s := by
    simp [lossEvent, baseEvent, not_lt.mpr h1, h2, h3]
  simp only
  unfold resourceEvent
  split
  · rename_i i t bl has had he
    rw [hh] at he
    simp only [Option.some.injEq, Slot.agent.injEq] at he
    obtain ⟨rfl, g⟩ := h4 has had (by rw [he])
    simp [not_lt.mpr h1, h2, g, hl]
  · exact hl

theorem nextEvent_deposit {c : QCfg T} {s : QS T} {a : Agent T} {had : Bool} (hk : c.kind = .resource)
    (h1 : headTime s.arrivals ≤ headTime s.departures) (h2 : headTime s.arrivals < ⊤)
    (hh : s.arrivals.head? = some (.agent a)) (h4 : a.kind = .resource true had) :
    nextEvent c s = depositEvent c s := by
  obtain ⟨i, t, bl, kd⟩ := a
  simp only at h4
  subst h4
  unfold nextEvent
  rw [hk]
  simp only
  unfold resourceEvent
  rw [hh]
  simp [not_lt.mpr h1, h2]

theorem nextEvent_full {c : QCfg T} {s : QS T} {a : Agent T} {had : Bool} (hk : c.kind = .resource)
    (h1 : headTime s.arrivals ≤ headTime s.departures) (h2 : headTime s.arrivals < ⊤)
    (hh : s.arrivals.head? = some (.agent a)) (h4 : a.kind = .resource false had)
    (h5 : s.numServers.lt s.numSystem = false) : nextEvent c s = resourceBlock c s := by
  obtain ⟨i, t, bl, kd⟩ := a
  simp only at h4
  subst h4
  unfold nextEvent
  rw [hk]
  simp only
  unfold resourceEvent
  rw [hh]
  simp [not_lt.mpr h1, h2, h5]

/-- What a deposit writes. -/
theorem depositEvent_data {c : QCfg T} {s s' : QS T} {a : Agent T} (hon : s.collectData = true)
    (hh : s.arrivals.head? = some (.agent a)) (h : depositEvent c s = .ok (s', none)) :
    s'.collectData = true ∧
      s'.data = s.data.append a.id ⟨a.time, a.time, a.time, s.queue.length, s.numSystem⟩ := by
  unfold depositEvent at h
  split at h
  · simp at h
  · simp at h
  · rename_i a0 rest hp
    have := heappop_head hp
    rw [hh] at this
    simp only [Option.some.injEq, Slot.agent.injEq] at this
    subst this
    simp only [resourceSetServers, hon, if_true, Except.ok.injEq, Prod.mk.injEq, and_true] at h
    rw [← h]
    exact ⟨rfl, rfl⟩

/-- What the refusal of a ResourceAgent writes. -/
theorem resourceBlock_data {c : QCfg T} {s s' : QS T} {a : Agent T} (hon : s.collectData = true)
    (hh : s.arrivals.head? = some (.agent a)) (h : resourceBlock c s = .ok (s', none)) :
    s'.collectData = true ∧ s'.data = s.data.append a.id ⟨a.time, 0, 0, s.queue.length, s.numSystem⟩ := by
  unfold resourceBlock at h
  split at h
  · simp at h
  · simp at h
  · rename_i a0 rest hp
    have := heappop_head hp
    rw [hh] at this
    simp only [Option.some.injEq, Slot.agent.injEq] at this
    subst this
    simp only [hon, if_true, Except.ok.injEq, Prod.mk.injEq, and_true] at h
    rw [← h]
    exact ⟨rfl, rfl⟩

end Verif
