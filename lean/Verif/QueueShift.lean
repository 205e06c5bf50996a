import Verif.QueueInv

/-! # A queue does not look at the number of draws made before (proof support)

`shift` adds to the call counters; a queue with shifted counters behaves as one that is given the
remaining draws. -/

set_option linter.unusedSectionVars false

namespace Verif

variable {T : Type*} [LinearOrder T] [OrderTop T] [Zero T]

/-- The parameters with the first `k1` arrival times and `k2` service times dropped. -/
def QCfg.later (c : QCfg T) (k1 k2 : Nat) : QCfg T :=
  { c with arrivalF := fun n => c.arrivalF (k1 + n), serviceF := fun n => c.serviceF (k2 + n) }

/-- The state with the call counters advanced. -/
def QS.shift (k1 k2 : Nat) (s : QS T) : QS T :=
  { s with arrCalls := k1 + s.arrCalls, svcCalls := k2 + s.svcCalls }

variable (c : QCfg T) (k1 k2 : Nat)

/-- Map over a result. -/
def mapOk {α β : Type*} (f : α → β) : Except Err α → Except Err β
  | .error e => .error e
  | .ok a => .ok (f a)

/-- Shift in a result of `next_event`. -/
def shiftR (p : QS T × Option (Agent T)) : QS T × Option (Agent T) := (p.1.shift k1 k2, p.2)

theorem updateTime_shift (s : QS T) : updateTime (s.shift k1 k2) = (updateTime s).shift k1 k2 := rfl

theorem bumpTime_shift (s : QS T) : bumpTime (s.shift k1 k2) = (bumpTime s).shift k1 k2 := rfl

theorem addArrivalAgent_shift (s : QS T) (a : Agent T) : addArrivalAgent c (s.shift k1 k2) a
    = mapOk (QS.shift k1 k2) (addArrivalAgent (c.later k1 k2) s a) := by
  unfold addArrivalAgent
  by_cases hk : c.kind = .null
  · by_cases hc : s.collectData = true <;> simp [hk, hc, QCfg.later, mapOk, QS.shift]
  · simp only [hk, QCfg.later, if_false, QS.shift]
    cases heappush Slot.time s.arrivals (.agent a) <;> rfl

theorem addArrival_shift (s : QS T) : addArrival c (s.shift k1 k2)
    = mapOk (QS.shift k1 k2) (addArrival (c.later k1 k2) s) := by
  unfold addArrival
  by_cases hk : c.kind = .null
  · simp only [hk, QCfg.later, if_true, mapOk]
  · simp only [hk, QCfg.later, if_false, QS.shift]
    by_cases h1 : s.nextCt ≤ s.currentT
    · simp only [h1, if_true]
      by_cases h2 : c.deactiveT ≤ c.arrivalF (k1 + s.arrCalls) s.currentT
      · simp only [h2, if_true, mapOk]; rfl
      · simp only [h2, if_false]
        cases heappush Slot.time s.arrivals
          (.agent ⟨(c.edge.idx, s.oArrivals), c.arrivalF (k1 + s.arrCalls) s.currentT, 0, c.factory⟩) with
        | none => rfl
        | some arr =>
          simp only [mapOk]
          by_cases h3 : c.activeCap.lt ((s.oArrivals + 1 : Nat) : Int) = true
          · simp only [bumpTime, h3, if_true]; rfl
          · simp only [bumpTime, h3, Bool.false_eq_true, if_false]; rfl
    · simp only [h1, if_false]; rfl

theorem queueAction_shift (s : QS T) (a : Agent T) (n : Nat) : queueAction c (s.shift k1 k2) a n
    = ((queueAction (c.later k1 k2) s a n).1.shift k1 k2, (queueAction (c.later k1 k2) s a n).2) := by
  unfold queueAction
  simp only [QCfg.later, QS.shift]
  cases hk : c.kind with
  | resource =>
    cases ha : a.kind with
    | resource has had =>
      cases has with
      | true => rfl
      | false =>
        by_cases h : Cap.lt 0 s.numServers = true
        · simp only [h, if_true, Bool.false_eq_true, if_false]; rfl
        · simp only [h, if_false, Bool.false_eq_true]
    | _ => rfl
  | _ => rfl

theorem serviceFromQueue_shift (s : QS T) : serviceFromQueue c (s.shift k1 k2)
    = mapOk (QS.shift k1 k2) (serviceFromQueue (c.later k1 k2) s) := by
  unfold serviceFromQueue
  cases hq : s.queue with
  | nil => simp only [QS.shift, hq]; rfl
  | cons a rest =>
    have key : ∀ s1 : QS T, ∀ a1 : Agent T,
        (match heappush Slot.time (queueAction c (s1.shift k1 k2) a1 1).1.departures
            (.agent (queueAction c (s1.shift k1 k2) a1 1).2) with
          | none => Except.error Err.indexError
          | some deps => .ok { (queueAction c (s1.shift k1 k2) a1 1).1 with departures := deps })
        = mapOk (QS.shift k1 k2)
          (match heappush Slot.time (queueAction (c.later k1 k2) s1 a1 1).1.departures
            (.agent (queueAction (c.later k1 k2) s1 a1 1).2) with
          | none => Except.error Err.indexError
          | some deps => .ok { (queueAction (c.later k1 k2) s1 a1 1).1 with departures := deps }) := by
      intro s1 a1
      rw [queueAction_shift]
      simp only [QS.shift]
      cases heappush Slot.time (queueAction (c.later k1 k2) s1 a1 1).1.departures
            (.agent (queueAction (c.later k1 k2) s1 a1 1).2) <;> rfl
    have k1' := key { s with queue := rest, svcCalls := s.svcCalls + 1
                             data := if s.collectData then
                               s.data.modify a.id fun r => { r with start := s.currentT } else s.data }
      { a with time := c.serviceF (k2 + s.svcCalls) s.currentT }
    simp only [QS.shift, hq] at k1' ⊢
    cases hc : s.collectData <;> simp only [hc, Bool.false_eq_true, if_true, if_false] at k1' ⊢ <;>
      exact k1'

theorem departEvent_shift (s : QS T) : departEvent c (s.shift k1 k2)
    = mapOk (shiftR k1 k2) (departEvent (c.later k1 k2) s) := by
  have key : ∀ (s1 : QS T) (a : Agent T) (n : Int),
      (match (if 0 < (s1.shift k1 k2).queue.length ∧ (s1.shift k1 k2).numServers.lt n then
          serviceFromQueue c (s1.shift k1 k2) else .ok (s1.shift k1 k2)) with
      | .error e => Except.error e
      | .ok s =>
        .ok (updateTime (queueAction c s a 2).1, some (queueAction c s a 2).2))
      = mapOk (shiftR k1 k2)
      (match (if 0 < s1.queue.length ∧ s1.numServers.lt n then
          serviceFromQueue (c.later k1 k2) s1 else .ok s1) with
      | .error e => Except.error e
      | .ok s =>
        .ok (updateTime (queueAction (c.later k1 k2) s a 2).1,
          some (queueAction (c.later k1 k2) s a 2).2)) := by
    intro s1 a n
    by_cases h : 0 < s1.queue.length ∧ s1.numServers.lt n = true
    · have h' : 0 < (s1.shift k1 k2).queue.length ∧ (s1.shift k1 k2).numServers.lt n = true := h
      simp only [if_pos h, if_pos h', serviceFromQueue_shift]
      cases serviceFromQueue (c.later k1 k2) s1 with
      | error e => rfl
      | ok s2 => simp only [mapOk, queueAction_shift]; rfl
    · have h' : ¬ (0 < (s1.shift k1 k2).queue.length ∧ (s1.shift k1 k2).numServers.lt n = true) := h
      simp only [if_neg h, if_neg h', queueAction_shift]; rfl
  unfold departEvent
  cases hp : heappop Slot.time s.departures with
  | none => simp only [QS.shift, hp]; rfl
  | some x =>
    obtain ⟨sl, deps⟩ := x
    cases sl with
    | infty => simp only [QS.shift, hp]; rfl
    | agent a =>
      cases hc : s.collectData with
      | false =>
        have := key { s with departures := deps, currentT := a.time, numTotal := s.numTotal - 1
                             numSystem := s.numSystem - 1, numDepartures := s.numDepartures + 1 } a
          (s.numSystem - 1 - s.queue.length)
        simp only [QS.shift, hp, hc, Bool.false_eq_true, if_false] at this ⊢
        exact this
      | true =>
        have := key { s with departures := deps, currentT := a.time, numTotal := s.numTotal - 1
                             numSystem := s.numSystem - 1, numDepartures := s.numDepartures + 1
                             data := s.data.modify a.id fun r => { r with dep := a.time } } a
          (s.numSystem - 1 - s.queue.length)
        simp only [QS.shift, hp, hc, if_true] at this ⊢
        exact this

/-- The second half of an arrival: service starts or the agent joins the line. -/
def arriveRest (c : QCfg T) (s : QS T) (a : Agent T) : Except Err (QS T × Option (Agent T)) :=
  let s := { s with numSystem := s.numSystem + 1, numArrivals := s.numArrivals + 1 }
  let b := if s.numServers.le s.numSystem then 0 else 1
  let s := if s.collectData then
      { s with data := s.data.append a.id ⟨a.time, 0, 0, s.queue.length + b, s.numSystem⟩ }
    else s
  let (s, a) := queueAction c s a 0
  if s.numServers.le s.numSystem then
    let s := if s.collectData then
        { s with data := s.data.modify a.id fun r => { r with start := a.time } } else s
    let a := { a with time := c.serviceF s.svcCalls a.time }
    let s := { s with svcCalls := s.svcCalls + 1 }
    let (s, a) := queueAction c s a 1
    match heappush Slot.time s.departures (.agent a) with
    | none => .error .indexError
    | some deps => .ok (updateTime { s with departures := deps }, none)
  else
    .ok (updateTime { s with queue := s.queue ++ [a] }, none)

/-- The part after recording the arrival. -/
def arriveTail (c : QCfg T) (s : QS T) (a : Agent T) : Except Err (QS T × Option (Agent T)) :=
  let (s, a) := queueAction c s a 0
  if s.numServers.le s.numSystem then
    let s := if s.collectData then
        { s with data := s.data.modify a.id fun r => { r with start := a.time } } else s
    let a := { a with time := c.serviceF s.svcCalls a.time }
    let s := { s with svcCalls := s.svcCalls + 1 }
    let (s, a) := queueAction c s a 1
    match heappush Slot.time s.departures (.agent a) with
    | none => .error .indexError
    | some deps => .ok (updateTime { s with departures := deps }, none)
  else
    .ok (updateTime { s with queue := s.queue ++ [a] }, none)

theorem arriveTail_shift (s : QS T) (a : Agent T) : arriveTail c (s.shift k1 k2) a
    = mapOk (shiftR k1 k2) (arriveTail (c.later k1 k2) s a) := by
  have key : ∀ (s1 : QS T) (a1 : Agent T),
      (match heappush Slot.time (queueAction c (s1.shift k1 k2) a1 1).1.departures
          (.agent (queueAction c (s1.shift k1 k2) a1 1).2) with
        | none => Except.error Err.indexError
        | some deps => .ok (updateTime { (queueAction c (s1.shift k1 k2) a1 1).1 with departures := deps },
            (none : Option (Agent T))))
      = mapOk (shiftR k1 k2)
        (match heappush Slot.time (queueAction (c.later k1 k2) s1 a1 1).1.departures
          (.agent (queueAction (c.later k1 k2) s1 a1 1).2) with
        | none => Except.error Err.indexError
        | some deps => .ok (updateTime { (queueAction (c.later k1 k2) s1 a1 1).1 with
            departures := deps }, none)) := by
    intro s1 a1
    rw [queueAction_shift]
    simp only [QS.shift]
    cases heappush Slot.time (queueAction (c.later k1 k2) s1 a1 1).1.departures
          (.agent (queueAction (c.later k1 k2) s1 a1 1).2) <;> rfl
  unfold arriveTail
  rw [queueAction_shift]
  generalize queueAction (c.later k1 k2) s a 0 = p
  obtain ⟨s, a⟩ := p
  by_cases h : s.numServers.le s.numSystem = true
  · cases hc : s.collectData with
    | false =>
      have := key { s with svcCalls := s.svcCalls + 1 }
        { a with time := c.serviceF (k2 + s.svcCalls) a.time }
      simp only [QS.shift, h, hc, Bool.false_eq_true, if_false, if_true] at this ⊢
      exact this
    | true =>
      have := key { s with svcCalls := s.svcCalls + 1
                           data := s.data.modify a.id fun r => { r with start := a.time } }
        { a with time := c.serviceF (k2 + s.svcCalls) a.time }
      simp only [QS.shift, h, hc, if_true] at this ⊢
      exact this
  · simp only [QS.shift, h]; rfl

theorem arriveRest_shift (s : QS T) (a : Agent T) : arriveRest c (s.shift k1 k2) a
    = mapOk (shiftR k1 k2) (arriveRest (c.later k1 k2) s a) := by
  cases hc : s.collectData with
  | false =>
    have := arriveTail_shift c k1 k2
      { s with numSystem := s.numSystem + 1, numArrivals := s.numArrivals + 1 } a
    unfold arriveTail at this
    unfold arriveRest
    simp only [QS.shift, hc, Bool.false_eq_true, if_false] at this ⊢
    exact this
  | true =>
    have := arriveTail_shift c k1 k2
      { s with numSystem := s.numSystem + 1, numArrivals := s.numArrivals + 1
               data := s.data.append a.id ⟨a.time, 0, 0, s.queue.length +
                (if s.numServers.le (s.numSystem + 1) then 0 else 1), s.numSystem + 1⟩ } a
    unfold arriveTail at this
    unfold arriveRest
    simp only [QS.shift, hc, if_true] at this ⊢
    exact this

theorem arriveEvent_shift (s : QS T) : arriveEvent c (s.shift k1 k2)
    = mapOk (shiftR k1 k2) (arriveEvent (c.later k1 k2) s) := by
  have key : ∀ (s1 : QS T) (a : Agent T),
      (match (if (s1.shift k1 k2).active then addArrival c (s1.shift k1 k2)
          else .ok (s1.shift k1 k2)) with
        | .error e => Except.error e
        | .ok s => arriveRest c s a)
      = mapOk (shiftR k1 k2)
        (match (if s1.active then addArrival (c.later k1 k2) s1 else .ok s1) with
        | .error e => Except.error e
        | .ok s => arriveRest (c.later k1 k2) s a) := by
    intro s1 a
    by_cases h : s1.active = true
    · have h' : (s1.shift k1 k2).active = true := h
      simp only [if_pos h, if_pos h', addArrival_shift]
      cases addArrival (c.later k1 k2) s1 with
      | error e => rfl
      | ok s2 => simp only [mapOk]; exact arriveRest_shift c k1 k2 s2 a
    · have h' : ¬ (s1.shift k1 k2).active = true := h
      simp only [if_neg h, if_neg h']
      exact arriveRest_shift c k1 k2 s1 a
  unfold arriveEvent
  cases hp : heappop Slot.time s.arrivals with
  | none => simp only [QS.shift, hp]; rfl
  | some x =>
    obtain ⟨sl, arr⟩ := x
    cases sl with
    | infty => simp only [QS.shift, hp]; rfl
    | agent a =>
      have := key { s with arrivals := arr, currentT := a.time } a
      unfold arriveRest at this
      simp only [QS.shift, hp] at this ⊢
      exact this

theorem blockEvent_shift (s : QS T) : blockEvent c (s.shift k1 k2)
    = mapOk (shiftR k1 k2) (blockEvent (c.later k1 k2) s) := by
  have rest : ∀ (s : QS T) (a : Agent T),
      (.ok (updateTime (if (s.shift k1 k2).collectData then
          { (s.shift k1 k2) with data := s.data.append a.id ⟨a.time, 0, 0, s.queue.length, s.numSystem⟩ }
        else (s.shift k1 k2)), none) : Except Err (QS T × Option (Agent T)))
      = mapOk (shiftR k1 k2) (.ok (updateTime (if s.collectData then
          { s with data := s.data.append a.id ⟨a.time, 0, 0, s.queue.length, s.numSystem⟩ }
        else s), none)) := by
    intro s a
    by_cases hc : s.collectData = true
    · rw [if_pos (show (s.shift k1 k2).collectData = true from hc), if_pos hc]; rfl
    · rw [if_neg (show ¬ (s.shift k1 k2).collectData = true from hc), if_neg hc]; rfl
  have key : ∀ (s1 : QS T) (a : Agent T),
      (match (if (s1.shift k1 k2).active then addArrival c (s1.shift k1 k2)
          else .ok (s1.shift k1 k2)) with
        | .error e => Except.error e
        | .ok s => (.ok (updateTime (if s.collectData then
          { s with data := s.data.append a.id ⟨a.time, 0, 0, s.queue.length, s.numSystem⟩ }
        else s), none) : Except Err (QS T × Option (Agent T))))
      = mapOk (shiftR k1 k2)
        (match (if s1.active then addArrival (c.later k1 k2) s1 else .ok s1) with
        | .error e => Except.error e
        | .ok s => (.ok (updateTime (if s.collectData then
          { s with data := s.data.append a.id ⟨a.time, 0, 0, s.queue.length, s.numSystem⟩ }
        else s), none) : Except Err (QS T × Option (Agent T)))) := by
    intro s1 a
    by_cases h : s1.active = true
    · have h' : (s1.shift k1 k2).active = true := h
      simp only [if_pos h, if_pos h', addArrival_shift]
      cases addArrival (c.later k1 k2) s1 with
      | error e => rfl
      | ok s2 => simp only [mapOk]; exact rest s2 a
    · have h' : ¬ (s1.shift k1 k2).active = true := h
      simp only [if_neg h, if_neg h']
      exact rest s1 a
  unfold blockEvent
  cases hp : heappop Slot.time s.arrivals with
  | none => simp only [QS.shift, hp]; rfl
  | some x =>
    obtain ⟨sl, arr⟩ := x
    cases sl with
    | infty => simp only [QS.shift, hp]; rfl
    | agent a =>
      have := key { s with numBlocked := s.numBlocked + 1, numTotal := s.numTotal - 1, arrivals := arr
                           lost := s.lost ++ [{ a with blocked := a.blocked + 1 }], currentT := a.time } a
      simp only [QS.shift, hp] at this ⊢
      exact this

theorem baseEvent_shift (s : QS T) : baseEvent c (s.shift k1 k2)
    = mapOk (shiftR k1 k2) (baseEvent (c.later k1 k2) s) := by
  unfold baseEvent
  rw [departEvent_shift, arriveEvent_shift]
  by_cases h1 : headTime s.departures < headTime s.arrivals
  · simp only [QS.shift, h1, if_true]
  · by_cases h2 : headTime s.arrivals < ⊤
    · simp only [QS.shift, h1, h2, if_true, if_false]
    · simp only [QS.shift, h1, h2, if_false]; rfl

theorem lossEvent_shift (s : QS T) : lossEvent c (s.shift k1 k2)
    = mapOk (shiftR k1 k2) (lossEvent (c.later k1 k2) s) := by
  unfold lossEvent
  rw [baseEvent_shift, blockEvent_shift]
  have e : (c.later k1 k2).buffer = c.buffer := rfl
  by_cases h1 : headTime s.departures < headTime s.arrivals
  · simp only [QS.shift, h1, if_true]
  · by_cases h2 : headTime s.arrivals < ⊤
    · by_cases h3 : (s.numServers.add c.buffer).lt s.numSystem = true
      · simp only [QS.shift, h1, h2, h3, e, if_true, if_false]
      · simp only [QS.shift, h1, h2, h3, e, if_true, if_false, Bool.false_eq_true]
    · simp only [QS.shift, h1, h2, if_false]; rfl

theorem nextEvent_shift (hk : Simple c) (s : QS T) : nextEvent c (s.shift k1 k2)
    = mapOk (shiftR k1 k2) (nextEvent (c.later k1 k2) s) := by
  unfold nextEvent
  have e : (c.later k1 k2).kind = c.kind := rfl
  rcases hk with hk | hk
  · simp only [e, hk]; exact baseEvent_shift c k1 k2 s
  · simp only [e, hk]; exact lossEvent_shift c k1 k2 s

theorem setActive_shift (s : QS T) : setActive c (s.shift k1 k2)
    = mapOk (QS.shift k1 k2) (setActive (c.later k1 k2) s) := by
  unfold setActive
  by_cases h : s.active = true
  · rw [if_pos (show (s.shift k1 k2).active = true from h), if_pos h]; rfl
  · rw [if_neg (show ¬ (s.shift k1 k2).active = true from h), if_neg h]
    exact addArrival_shift c k1 k2 { s with active := true }

theorem delayService_shift (s : QS T) (t : Option T) : delayService c (s.shift k1 k2) t
    = mapOk (QS.shift k1 k2) (delayService (c.later k1 k2) s t) := by
  unfold delayService
  have e : (c.later k1 k2).kind = c.kind := rfl
  by_cases hk : c.kind = .null
  · simp only [e, hk, if_true]; rfl
  · by_cases hl : 1 < s.departures.length
    · simp only [hk, if_false, QS.shift, hl, if_true, QCfg.later]
      cases heappop Slot.time s.departures with
      | none => rfl
      | some x =>
        obtain ⟨sl, deps⟩ := x
        cases sl with
        | infty => rfl
        | agent a =>
          cases t with
          | none =>
            simp only
            cases heappush Slot.time deps (.agent { a with time := c.serviceF (k2 + s.svcCalls) a.time }) with
            | none => rfl
            | some d => simp only [mapOk]; rfl
          | some t =>
            simp only
            cases heappush Slot.time deps (.agent { a with time := t }) <;> rfl
    · simp only [e, hk, if_false, QS.shift, hl]; rfl

theorem serviceMany_shift (k : Nat) (s : QS T) : serviceMany c k (s.shift k1 k2)
    = mapOk (QS.shift k1 k2) (serviceMany (c.later k1 k2) k s) := by
  induction k generalizing s with
  | zero => rfl
  | succ k ih =>
    simp only [serviceMany, serviceFromQueue_shift]
    cases serviceFromQueue (c.later k1 k2) s with
    | error e => rfl
    | ok s2 => simp only [mapOk]; exact ih s2

theorem setNumServers_shift (hk : Simple c) (s : QS T) (n : PyNum) : setNumServers c (s.shift k1 k2) n
    = ((setNumServers (c.later k1 k2) s n).1.shift k1 k2, (setNumServers (c.later k1 k2) s n).2) := by
  have go : ∀ new : Cap,
      (match agentsToQueue new (s.shift k1 k2).numServers (s.shift k1 k2).queue.length with
      | none => (s.shift k1 k2, some Err.typeError)
      | some k =>
        match serviceMany c k (s.shift k1 k2) with
        | .error e => (s.shift k1 k2, some e)
        | .ok s' =>
          let s' := if 0 < k then updateTime s' else s'
          ({ s' with numServers := new }, none))
      = (QS.shift k1 k2 (match agentsToQueue new s.numServers s.queue.length with
      | none => (s, some Err.typeError)
      | some k =>
        match serviceMany (c.later k1 k2) k s with
        | .error e => (s, some e)
        | .ok s' =>
          let s' := if 0 < k then updateTime s' else s'
          ({ s' with numServers := new }, none)).1,
        (match agentsToQueue new s.numServers s.queue.length with
      | none => (s, some Err.typeError)
      | some k =>
        match serviceMany (c.later k1 k2) k s with
        | .error e => (s, some e)
        | .ok s' =>
          let s' := if 0 < k then updateTime s' else s'
          ({ s' with numServers := new }, none)).2) := by
    intro new
    have e : agentsToQueue new (s.shift k1 k2).numServers (s.shift k1 k2).queue.length
        = agentsToQueue new s.numServers s.queue.length := rfl
    rw [e]
    cases agentsToQueue new s.numServers s.queue.length with
    | none => rfl
    | some k =>
      simp only [serviceMany_shift]
      cases serviceMany (c.later k1 k2) k s with
      | error e => rfl
      | ok s2 => by_cases h : 0 < k <;> simp only [mapOk, h, if_true, if_false] <;> rfl
  unfold setNumServers
  have e : (c.later k1 k2).kind = c.kind := rfl
  rcases hk with hk | hk
  all_goals
    simp only [e, hk]
    cases n with
    | other => rfl
    | int n =>
      by_cases h : n ≤ 0
      · simp only [h, if_true]
      · simp only [h, if_false]; exact go _
    | infty => exact go _

theorem clear_shift (s : QS T) : clear c (s.shift k1 k2) = (clear (c.later k1 k2) s).shift k1 k2 := by
  unfold clear
  have e : (c.later k1 k2).kind = c.kind := rfl
  rw [e]
  cases c.kind <;> rfl

theorem run_shift (hk : Simple c) (s : QS T) (op : QOp T) : op.run c (s.shift k1 k2)
    = mapOk (QS.shift k1 k2) (op.run (c.later k1 k2) s) := by
  cases op with
  | next =>
    simp only [QOp.run, nextEvent_shift c k1 k2 hk]
    cases nextEvent (c.later k1 k2) s <;> rfl
  | setActive => exact setActive_shift c k1 k2 s
  | setInactive => rfl
  | setServers n => simp only [QOp.run, setNumServers_shift c k1 k2 hk, mapOk]
  | delay t kb =>
    have e : bumpHead (s.shift k1 k2) kb = (bumpHead s kb).shift k1 k2 := by
      unfold bumpHead
      have e1 : (s.shift k1 k2).departures = s.departures := rfl
      rw [e1]
      cases s.departures with
      | nil => rfl
      | cons x l => cases x <;> rfl
    simp only [QOp.run, e]
    exact delayService_shift c k1 k2 (bumpHead s kb) t
  | collect b => rfl
  | note =>
    have e1 : atCapacity c (s.shift k1 k2) = atCapacity (c.later k1 k2) s := rfl
    simp only [QOp.run, e1]
    by_cases h : atCapacity (c.later k1 k2) s = true
    · rw [if_pos h, if_pos h]; rfl
    · rw [if_neg h, if_neg h]; rfl
  | clearData => rfl
  | clear => simp only [QOp.run, clear_shift, mapOk]
  | handover a => exact addArrivalAgent_shift c k1 k2 s a

end Verif
