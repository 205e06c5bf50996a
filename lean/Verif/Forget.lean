import Verif.NetRun

/-!
# The functions of the model commute with forgetting the data (for C116)
-/

set_option linter.unusedSectionVars false
set_option linter.unusedSimpArgs false

namespace Verif

variable {T R : Type*} [LinearOrder T] [OrderTop T] [Zero T] [LinearOrder R] [Add R]

/-- The queue without its data. -/
def QS.forget (s : QS T) : QS T := { s with collectData := false, data := [] }

def fgt : Except Err (QS T) → Except Err (QS T)
  | .error e => .error e
  | .ok s => .ok s.forget

def fgt2 {α : Type*} : Except Err (QS T × α) → Except Err (QS T × α)
  | .error e => .error e
  | .ok (s, r) => .ok (s.forget, r)

theorem bumpTime_forget (s : QS T) : bumpTime s.forget = (bumpTime s).forget := rfl
theorem updateTime_forget (s : QS T) : updateTime s.forget = (updateTime s).forget := rfl

theorem addArrivalAgent_forget (c : QCfg T) (s : QS T) (a : Agent T) :
    addArrivalAgent c s.forget a = fgt (addArrivalAgent c s a) := by
  unfold addArrivalAgent
  split
  · cases h : s.collectData <;> simp [QS.forget, fgt]
  · simp only [QS.forget]
    cases heappush Slot.time s.arrivals (.agent a) <;> rfl

theorem stop_forget (b : Bool) (s : QS T) : bumpTime (if b then s.forget else { s.forget with active := false }) =
    (bumpTime (if b then s else { s with active := false })).forget := by
  cases b <;> rfl

theorem addArrival_forget (c : QCfg T) (s : QS T) : addArrival c s.forget = fgt (addArrival c s) := by
  unfold addArrival
  by_cases h1 : c.kind = .null
  · simp only [h1, if_true]; rfl
  by_cases h2 : s.nextCt ≤ s.currentT
  · have h2' : s.forget.nextCt ≤ s.forget.currentT := h2
    by_cases h3 : c.deactiveT ≤ c.arrivalF s.arrCalls s.currentT
    · have h3' : c.deactiveT ≤ c.arrivalF s.forget.arrCalls s.forget.currentT := h3
      simp only [h1, h2, h2', h3, h3', if_true, if_false]; rfl
    · have h3' : ¬ c.deactiveT ≤ c.arrivalF s.forget.arrCalls s.forget.currentT := h3
      simp only [h1, h2, h2', h3, h3', if_true, if_false]
      simp only [QS.forget]
      cases heappush Slot.time s.arrivals (.agent ⟨(c.edge.idx, s.oArrivals), c.arrivalF s.arrCalls s.currentT, 0, c.factory⟩)
      · rfl
      · exact congrArg Except.ok (stop_forget _ { s with
          nextCt := c.arrivalF s.arrCalls s.currentT, arrCalls := s.arrCalls + 1, numTotal := s.numTotal + 1
          arrivals := _, oArrivals := s.oArrivals + 1
          created := s.created ++ [((c.edge.idx, s.oArrivals), c.arrivalF s.arrCalls s.currentT)] })
  · have h2' : ¬ s.forget.nextCt ≤ s.forget.currentT := h2
    simp only [h1, h2, h2', if_false]; rfl

theorem queueAction_forget (c : QCfg T) (s : QS T) (a : Agent T) (i : Nat) :
    queueAction c s.forget a i = ((queueAction c s a i).1.forget, (queueAction c s a i).2) := by
  obtain ⟨id, tm, bl, k⟩ := a
  unfold queueAction
  cases c.kind <;> cases k <;> try rfl
  rename_i has had
  cases has
  · cases h : Cap.lt 0 s.numServers <;> (simp only [QS.forget, h, Bool.false_eq_true, if_false, if_true]; try rfl)
  · rfl

/-- What the code does if data are collected. -/
theorem forget_ite (s : QS T) (d : Data T) (b : Bool) : (if b then { s with data := d } else s).forget = s.forget := by
  cases b <;> rfl

theorem serviceFromQueue_forget (c : QCfg T) (s : QS T) :
    serviceFromQueue c s.forget = fgt (serviceFromQueue c s) := by
  have key : ∀ (s : QS T) (a : Agent T), (match heappush Slot.time (queueAction c s.forget a 1).1.departures
        (.agent (queueAction c s.forget a 1).2) with
      | none => Except.error .indexError
      | some deps => Except.ok { (queueAction c s.forget a 1).1 with departures := deps }) =
      fgt (match heappush Slot.time (queueAction c s a 1).1.departures (.agent (queueAction c s a 1).2) with
      | none => Except.error .indexError
      | some deps => Except.ok { (queueAction c s a 1).1 with departures := deps }) := by
    intro s a
    rw [queueAction_forget]
    simp only [QS.forget]
    cases heappush Slot.time (queueAction c s a 1).1.departures (.agent (queueAction c s a 1).2) <;> rfl
  unfold serviceFromQueue
  have hq : s.forget.queue = s.queue := rfl
  rw [hq]
  cases s.queue with
  | nil => rfl
  | cons a rest =>
    simp only
    cases h : s.collectData
    · exact key { s with collectData := false, queue := rest, svcCalls := s.svcCalls + 1 } _
    · exact key { s with
        collectData := true
        queue := rest, svcCalls := s.svcCalls + 1
        data := s.data.modify a.id fun r => { r with start := s.currentT } } _


theorem departEvent_forget (c : QCfg T) (s : QS T) : departEvent c s.forget = fgt2 (departEvent c s) := by
  have key : ∀ (s : QS T) (a : Agent T),
      (match (if 0 < s.forget.queue.length ∧ s.forget.numServers.lt (s.forget.numSystem - s.forget.queue.length) then
            serviceFromQueue c s.forget else .ok s.forget) with
        | .error e => Except.error e
        | .ok s => .ok (updateTime (queueAction c s a 2).1, some (queueAction c s a 2).2)) =
      fgt2 (match (if 0 < s.queue.length ∧ s.numServers.lt (s.numSystem - s.queue.length) then
            serviceFromQueue c s else .ok s) with
        | .error e => Except.error e
        | .ok s => .ok (updateTime (queueAction c s a 2).1, some (queueAction c s a 2).2)) := by
    intro s a
    rw [serviceFromQueue_forget]
    have he : (if 0 < s.forget.queue.length ∧ s.forget.numServers.lt (s.forget.numSystem - s.forget.queue.length) then
          fgt (serviceFromQueue c s) else .ok s.forget) =
        fgt (if 0 < s.queue.length ∧ s.numServers.lt (s.numSystem - s.queue.length) then serviceFromQueue c s else .ok s) := by
      rw [apply_ite fgt]; rfl
    rw [he]
    cases (if 0 < s.queue.length ∧ s.numServers.lt (s.numSystem - s.queue.length) then serviceFromQueue c s else .ok s) with
    | error e => rfl
    | ok s => simp only [fgt, fgt2, queueAction_forget, updateTime_forget]
  unfold departEvent
  have hq : s.forget.departures = s.departures := rfl
  rw [hq]
  cases heappop Slot.time s.departures with
  | none => rfl
  | some p =>
    obtain ⟨_ | a, deps⟩ := p
    · rfl
    simp only
    cases h : s.collectData
    · exact key { s with
        collectData := false
        departures := deps, currentT := a.time, numTotal := s.numTotal - 1, numSystem := s.numSystem - 1
        numDepartures := s.numDepartures + 1 } a
    · exact key { s with
        collectData := true
        departures := deps, currentT := a.time, numTotal := s.numTotal - 1, numSystem := s.numSystem - 1
        numDepartures := s.numDepartures + 1
        data := s.data.modify a.id fun r => { r with dep := a.time } } a

theorem ext_forget (c : QCfg T) (s : QS T) :
    (if s.forget.active then addArrival c s.forget else .ok s.forget) = fgt (if s.active then addArrival c s else .ok s) := by
  rw [addArrival_forget, apply_ite fgt]; rfl

/-- The end of `arriveEvent`. -/
def arrTail (c : QCfg T) (s : QS T) (a : Agent T) : Except Err (QS T × Option (Agent T)) :=
  if s.numServers.le s.numSystem then
    let s := if s.collectData then
        { s with data := s.data.modify a.id fun r => { r with start := a.time } } else s
    let a := { a with time := c.serviceF s.svcCalls a.time }
    let s := { s with svcCalls := s.svcCalls + 1 }
    let (s, a) := queueAction c s a 1
    match heappush Slot.time s.departures (.agent a) with
    | none => .error .indexError
    | some deps => .ok (updateTime { s with departures := deps }, none)
  else
    .ok (updateTime { s with queue := s.queue ++ [a] }, none)

/-- The middle and the end of `arriveEvent`. -/
def arrMid (c : QCfg T) (s : QS T) (a : Agent T) : Except Err (QS T × Option (Agent T)) :=
  let s := { s with numSystem := s.numSystem + 1, numArrivals := s.numArrivals + 1 }
  let b := if s.numServers.le s.numSystem then 0 else 1
  let s := if s.collectData then
      { s with data := s.data.append a.id ⟨a.time, 0, 0, s.queue.length + b, s.numSystem⟩ }
    else s
  arrTail c (queueAction c s a 0).1 (queueAction c s a 0).2

/-- The new agent from outside. -/
def extPart (c : QCfg T) (s : QS T) : Except Err (QS T) := if s.active then addArrival c s else .ok s

theorem extPart_forget (c : QCfg T) (s : QS T) : extPart c s.forget = fgt (extPart c s) := by
  unfold extPart
  rw [addArrival_forget, apply_ite fgt]; rfl

theorem arriveEvent_eq (c : QCfg T) (s : QS T) : arriveEvent c s = match heappop Slot.time s.arrivals with
    | none => .error .indexError
    | some (.infty, _) => .error .attributeError
    | some (.agent a, arr) => match extPart c { s with arrivals := arr, currentT := a.time } with
      | .error e => .error e
      | .ok s => arrMid c s a := rfl

theorem arrTail_forget (c : QCfg T) (s : QS T) (a : Agent T) : arrTail c s.forget a = fgt2 (arrTail c s a) := by
  have key2 : ∀ (s : QS T) (a : Agent T),
      (match heappush Slot.time (queueAction c s.forget a 1).1.departures (.agent (queueAction c s.forget a 1).2) with
        | none => Except.error .indexError
        | some deps => Except.ok (updateTime { (queueAction c s.forget a 1).1 with departures := deps },
            (none : Option (Agent T)))) =
      fgt2 (match heappush Slot.time (queueAction c s a 1).1.departures (.agent (queueAction c s a 1).2) with
        | none => Except.error .indexError
        | some deps => Except.ok (updateTime { (queueAction c s a 1).1 with departures := deps }, none)) := by
    intro s a
    rw [queueAction_forget]
    simp only [QS.forget]
    cases heappush Slot.time (queueAction c s a 1).1.departures (.agent (queueAction c s a 1).2) <;> rfl
  unfold arrTail
  rw [apply_ite fgt2]
  refine if_congr Iff.rfl ?_ rfl
  simp only
  cases h : s.collectData
  · exact key2 { s with svcCalls := s.svcCalls + 1 } { a with time := c.serviceF s.svcCalls a.time }
  · exact key2 { s with
      collectData := true, svcCalls := s.svcCalls + 1
      data := s.data.modify a.id fun r => { r with start := a.time } } { a with time := c.serviceF s.svcCalls a.time }

theorem arrMid_forget (c : QCfg T) (s : QS T) (a : Agent T) : arrMid c s.forget a = fgt2 (arrMid c s a) := by
  have key : ∀ s : QS T, arrTail c (queueAction c s.forget a 0).1 (queueAction c s.forget a 0).2 =
      fgt2 (arrTail c (queueAction c s a 0).1 (queueAction c s a 0).2) := by
    intro s
    rw [queueAction_forget, arrTail_forget]
  unfold arrMid
  simp only
  cases h : s.collectData
  · exact key { s with collectData := false, numSystem := s.numSystem + 1, numArrivals := s.numArrivals + 1 }
  · exact key { s with
      collectData := true, numSystem := s.numSystem + 1, numArrivals := s.numArrivals + 1
      data := s.data.append a.id ⟨a.time, 0, 0, s.queue.length +
        (if s.numServers.le (s.numSystem + 1) then 0 else 1), s.numSystem + 1⟩ }

theorem arriveEvent_forget (c : QCfg T) (s : QS T) : arriveEvent c s.forget = fgt2 (arriveEvent c s) := by
  rw [arriveEvent_eq, arriveEvent_eq]
  have hq : s.forget.arrivals = s.arrivals := rfl
  rw [hq]
  cases heappop Slot.time s.arrivals with
  | none => rfl
  | some p =>
    obtain ⟨_ | a, arr⟩ := p
    · rfl
    have he := extPart_forget c { s with arrivals := arr, currentT := a.time }
    have e1 : ({ s.forget with arrivals := arr, currentT := a.time } : QS T) =
      ({ s with arrivals := arr, currentT := a.time } : QS T).forget := rfl
    simp only
    rw [e1, he]
    cases extPart c { s with arrivals := arr, currentT := a.time } with
    | error e => rfl
    | ok s => exact arrMid_forget c s a

theorem baseEvent_forget (c : QCfg T) (s : QS T) : baseEvent c s.forget = fgt2 (baseEvent c s) := by
  unfold baseEvent
  rw [departEvent_forget, arriveEvent_forget, apply_ite fgt2, apply_ite fgt2]; rfl

/-- The end of `blockEvent`. -/
def blockTail (s : QS T) (a : Agent T) : Except Err (QS T × Option (Agent T)) :=
  let s := if s.collectData then
      { s with data := s.data.append a.id ⟨a.time, 0, 0, s.queue.length, s.numSystem⟩ }
    else s
  .ok (updateTime s, none)

theorem blockTail_forget (s : QS T) (a : Agent T) : blockTail s.forget a = fgt2 (blockTail s a) := by
  unfold blockTail
  cases h : s.collectData <;> simp only [if_true, Bool.false_eq_true, if_false, fgt2, ← updateTime_forget] <;> rfl

theorem blockEvent_eq (c : QCfg T) (s : QS T) : blockEvent c s = match heappop Slot.time s.arrivals with
    | none => .error .indexError
    | some (.infty, _) => .error .attributeError
    | some (.agent a, arr) => match extPart c { s with
        numBlocked := s.numBlocked + 1, numTotal := s.numTotal - 1, arrivals := arr
        lost := s.lost ++ [{ a with blocked := a.blocked + 1 }], currentT := a.time } with
      | .error e => .error e
      | .ok s => blockTail s a := rfl

theorem blockEvent_forget (c : QCfg T) (s : QS T) : blockEvent c s.forget = fgt2 (blockEvent c s) := by
  rw [blockEvent_eq, blockEvent_eq]
  have hq : s.forget.arrivals = s.arrivals := rfl
  rw [hq]
  cases heappop Slot.time s.arrivals with
  | none => rfl
  | some p =>
    obtain ⟨_ | a, arr⟩ := p
    · rfl
    have he := extPart_forget c { s with
      numBlocked := s.numBlocked + 1, numTotal := s.numTotal - 1, arrivals := arr
      lost := s.lost ++ [{ a with blocked := a.blocked + 1 }], currentT := a.time }
    have e1 : ({ s.forget with
      numBlocked := s.forget.numBlocked + 1, numTotal := s.forget.numTotal - 1, arrivals := arr
      lost := s.forget.lost ++ [{ a with blocked := a.blocked + 1 }], currentT := a.time } : QS T) =
      ({ s with
      numBlocked := s.numBlocked + 1, numTotal := s.numTotal - 1, arrivals := arr
      lost := s.lost ++ [{ a with blocked := a.blocked + 1 }], currentT := a.time } : QS T).forget := rfl
    simp only
    rw [e1, he]
    cases extPart c { s with
      numBlocked := s.numBlocked + 1, numTotal := s.numTotal - 1, arrivals := arr
      lost := s.lost ++ [{ a with blocked := a.blocked + 1 }], currentT := a.time } with
    | error e => rfl
    | ok s => exact blockTail_forget s a

theorem lossEvent_forget (c : QCfg T) (s : QS T) : lossEvent c s.forget = fgt2 (lossEvent c s) := by
  unfold lossEvent
  rw [baseEvent_forget, blockEvent_forget, apply_ite fgt2, apply_ite fgt2, apply_ite fgt2]; rfl

theorem depositEvent_forget (c : QCfg T) (s : QS T) : depositEvent c s.forget = fgt2 (depositEvent c s) := by
  unfold depositEvent
  have hq : s.forget.arrivals = s.arrivals := rfl
  rw [hq]
  cases heappop Slot.time s.arrivals with
  | none => rfl
  | some p =>
    obtain ⟨_ | a, arr⟩ := p
    · rfl
    cases h : s.collectData <;> simp only [resourceSetServers, h] <;> rfl

theorem resourceBlock_forget (c : QCfg T) (s : QS T) : resourceBlock c s.forget = fgt2 (resourceBlock c s) := by
  unfold resourceBlock
  have hq : s.forget.arrivals = s.arrivals := rfl
  rw [hq]
  cases heappop Slot.time s.arrivals with
  | none => rfl
  | some p =>
    obtain ⟨_ | a, arr⟩ := p
    · rfl
    cases h : s.collectData <;> simp only [h] <;> rfl

theorem resourceEvent_forget (c : QCfg T) (s : QS T) : resourceEvent c s.forget = fgt2 (resourceEvent c s) := by
  unfold resourceEvent
  have hq : s.forget.arrivals = s.arrivals := rfl
  rw [lossEvent_forget, depositEvent_forget, resourceBlock_forget, hq]
  cases s.arrivals.head? with
  | none => rfl
  | some x =>
    obtain _ | ⟨i, t, b, k⟩ := x
    · rfl
    cases k <;> try rfl
    simp only
    rw [apply_ite fgt2, apply_ite fgt2, apply_ite fgt2, apply_ite fgt2]
    rfl

theorem nextEvent_forget (c : QCfg T) (s : QS T) : nextEvent c s.forget = fgt2 (nextEvent c s) := by
  unfold nextEvent
  cases c.kind
  · exact baseEvent_forget c s
  all_goals first | exact lossEvent_forget c s | exact resourceEvent_forget c s | rfl

theorem setActive_forget (c : QCfg T) (s : QS T) : setActive c s.forget = fgt (setActive c s) := by
  unfold setActive
  rw [apply_ite fgt]
  refine if_congr Iff.rfl rfl ?_
  exact addArrival_forget c { s with active := true }

theorem bumpHead_forget (s : QS T) (k : Nat) : bumpHead s.forget k = (bumpHead s k).forget := by
  unfold bumpHead
  have hq : s.forget.departures = s.departures := rfl
  rw [hq]
  split <;> rfl

theorem delayService_forget (c : QCfg T) (s : QS T) (t : Option T) :
    delayService c s.forget t = fgt (delayService c s t) := by
  unfold delayService
  have hq : s.forget.departures = s.departures := rfl
  rw [hq, apply_ite fgt, apply_ite fgt]
  refine if_congr Iff.rfl rfl (if_congr Iff.rfl ?_ rfl)
  cases heappop Slot.time s.departures with
  | none => rfl
  | some p =>
    obtain ⟨_ | a, deps⟩ := p
    · rfl
    cases t with
    | none =>
      simp only [show s.forget.svcCalls = s.svcCalls from rfl]
      cases heappush Slot.time deps (.agent { a with time := c.serviceF s.svcCalls a.time }) <;> rfl
    | some t =>
      simp only
      cases heappush Slot.time deps (.agent { a with time := t }) <;> rfl

theorem serviceMany_forget (c : QCfg T) (k : Nat) (s : QS T) : serviceMany c k s.forget = fgt (serviceMany c k s) := by
  induction k generalizing s with
  | zero => rfl
  | succ k ih =>
    simp only [serviceMany, serviceFromQueue_forget]
    cases serviceFromQueue c s with
    | error e => rfl
    | ok s => exact ih s

theorem setNumServers_forget (c : QCfg T) (s : QS T) (n : PyNum) :
    setNumServers c s.forget n = ((setNumServers c s n).1.forget, (setNumServers c s n).2) := by
  have key : ∀ new : Cap, (match agentsToQueue new s.forget.numServers s.forget.queue.length with
      | none => (s.forget, some Err.typeError)
      | some k =>
        match serviceMany c k s.forget with
        | .error e => (s.forget, some e)
        | .ok s' => ({ (if 0 < k then updateTime s' else s') with numServers := new }, none)) =
      ((match agentsToQueue new s.numServers s.queue.length with
      | none => (s, some Err.typeError)
      | some k =>
        match serviceMany c k s with
        | .error e => (s, some e)
        | .ok s' => ({ (if 0 < k then updateTime s' else s') with numServers := new }, none)).1.forget,
      (match agentsToQueue new s.numServers s.queue.length with
      | none => (s, some Err.typeError)
      | some k =>
        match serviceMany c k s with
        | .error e => (s, some e)
        | .ok s' => ({ (if 0 < k then updateTime s' else s') with numServers := new }, none)).2) := by
    intro new
    rw [show s.forget.numServers = s.numServers from rfl, show s.forget.queue = s.queue from rfl]
    cases agentsToQueue new s.numServers s.queue.length with
    | none => rfl
    | some k =>
      simp only [serviceMany_forget]
      cases serviceMany c k s with
      | error e => rfl
      | ok s' =>
        simp only [fgt]
        by_cases h : 0 < k <;> simp only [h, if_true, if_false] <;> rfl
  unfold setNumServers
  cases c.kind <;> cases n <;> try rfl
  all_goals first
    | exact key .inf
    | (rename_i m; by_cases h : m ≤ 0 <;> simp only [h, if_true, if_false]; exact key (.fin m))

theorem clear_forget (c : QCfg T) (s : QS T) : clear c s.forget = (clear c s).forget := by
  unfold clear
  cases c.kind <;> rfl

theorem nextEventDescription_forget (c : QCfg T) (s : QS T) : nextEventDescription c s.forget = nextEventDescription c s :=
  rfl

theorem atCapacity_forget (c : QCfg T) (s : QS T) : atCapacity c s.forget = atCapacity c s := rfl

theorem numberQueued_forget (c : QCfg T) (s : QS T) : numberQueued c s.forget = numberQueued c s := rfl

theorem setInactive_forget (s : QS T) : setInactive s.forget = (setInactive s).forget := rfl

theorem forget_forget (s : QS T) : s.forget.forget = s.forget := rfl


/-! ## Networks -/

/-- The network without its data. -/
def Net.forget (n : Net T R) : Net T R := { n with qs := fun k => (n.qs k).forget }

def nfgt : Except DestErr (Net T R) → Except DestErr (Net T R)
  | .error e => .error e
  | .ok n => .ok n.forget

namespace Net

theorem setQ_forget (n : Net T R) (k : Nat) (s : QS T) : n.forget.setQ k s.forget = (n.setQ k s).forget := by
  simp only [setQ, forget]
  congr 1
  funext j
  by_cases h : j = k
  · subst h; simp only [Function.update_self]
  · simp only [Function.update_of_ne h]

theorem setNum_forget (n : Net T R) (k : Nat) (x : Int) : n.forget.setNum k x = (n.setNum k x).forget := rfl

theorem maxed_forget (N : NetCfg T R) (n : Net T R) : n.forget.maxed N = n.maxed N := rfl

theorem pushKey_forget (N : NetCfg T R) (n : Net T R) (i k : Nat) : n.forget.pushKey N i k = nfgt (n.pushKey N i k) := by
  unfold pushKey
  show (match n.heap.push (N.garbage i) (n.qs k).time (N.qc k).edge.idx with
    | none => Except.error (DestErr.mem .outOfBounds)
    | some h => .ok { n.forget with heap := h }) = _
  cases n.heap.push (N.garbage i) (n.qs k).time (N.qc k).edge.idx <;> rfl

theorem destination_forget (N : NetCfg T R) (n : Net T R) (k : Nat) (a : Agent T) :
    n.forget.destination N k a = n.destination N k a := rfl

theorem blocked_forget (N : NetCfg T R) (n : Net T R) (k e : Nat) :
    n.forget.blocked N k e = nfgt (n.blocked N k e) := by
  unfold blocked
  simp only
  have e1 : ({ n.forget.qs e with numBlocked := (n.forget.qs e).numBlocked + 1 } : QS T) =
    ({ n.qs e with numBlocked := (n.qs e).numBlocked + 1 } : QS T).forget := rfl
  rw [e1, setQ_forget]
  generalize n.setQ e { n.qs e with numBlocked := (n.qs e).numBlocked + 1 } = m
  have e2 : m.forget.qs k = (m.qs k).forget := rfl
  rw [e2, bumpHead_forget, setQ_forget]
  generalize m.setQ k (bumpHead (m.qs k) 1) = m
  have e3 : m.forget.qs k = (m.qs k).forget := rfl
  have e4 : (m.forget.qs e).departures = (m.qs e).departures := rfl
  have e5 : m.forget.bas = m.bas := rfl
  have e6 : m.forget.jitCalls = m.jitCalls := rfl
  rw [e3, delayService_forget, e4, e5, e6]
  cases delayService (N.qc k) (m.qs k) (if m.bas then some (N.jit m.jitCalls (headTime (m.qs e).departures)) else none) with
  | error e => rfl
  | ok s =>
    simp only [fgt, nfgt, setQ_forget]
    rfl

theorem move_forget (N : NetCfg T R) (n : Net T R) (k e : Nat) (t : T) :
    n.forget.move N k e t = nfgt (n.move N k e t) := by
  unfold move
  have e1 : n.forget.qs k = (n.qs k).forget := rfl
  rw [e1, nextEvent_forget]
  rcases nextEvent (N.qc k) (n.qs k) with err | ⟨s, _ | a⟩
  · rfl
  · rfl
  simp only [fgt2]
  rw [setQ_forget]
  generalize n.setQ k s = m
  have e2 : m.forget.qs e = (m.qs e).forget := rfl
  rw [e2, addArrivalAgent_forget]
  cases addArrivalAgent (N.qc e) (m.qs e) { a with time := t } with
  | error err => rfl
  | ok s2 =>
    simp only [fgt]
    rw [setQ_forget]
    generalize m.setQ e s2 = m
    have e3 : (m.forget.qs k).numTotal = (m.qs k).numTotal := rfl
    rw [e3, setNum_forget]
    generalize m.setNum (N.qc k).edge.idx (m.qs k).numTotal = m
    have e4 : (m.forget.qs e).numTotal = (m.qs e).numTotal := rfl
    rw [e4, setNum_forget]
    generalize m.setNum e (m.qs e).numTotal = m
    have e5 : (if (m.forget.qs e).active && m.forget.maxed N then setInactive (m.forget.qs e) else m.forget.qs e) =
        (if (m.qs e).active && m.maxed N then setInactive (m.qs e) else m.qs e).forget := by
      rw [apply_ite QS.forget]; rfl
    rw [e5, nextEvent_forget]
    rcases nextEvent (N.qc e) (if (m.qs e).active && m.maxed N then setInactive (m.qs e) else m.qs e) with err | ⟨s, r⟩
    · rfl
    · simp only [fgt2, nfgt, setQ_forget]
      rfl

theorem pushBoth_forget (N : NetCfg T R) (n : Net T R) (k e : Nat) (t : T) :
    n.forget.pushBoth N k e t = nfgt (n.pushBoth N k e t) := by
  unfold pushBoth
  simp only [pushKey_forget]
  have e1 : n.forget.numEvents = n.numEvents := rfl
  rw [e1, apply_ite nfgt, apply_ite nfgt]
  refine if_congr Iff.rfl ?_ rfl
  cases n.pushKey N (2 * n.numEvents) e with
  | error err => rfl
  | ok m =>
    rw [show nfgt (.ok m) = .ok m.forget from rfl]
    simp only [pushKey_forget]
    rw [apply_ite nfgt]
    rfl

theorem departure_forget (N : NetCfg T R) (n : Net T R) (k : Nat) (t : T) :
    n.forget.departure N k t = nfgt (n.departure N k t) := by
  unfold departure
  have e1 : (n.forget.qs k).departures = (n.qs k).departures := rfl
  rw [e1]
  rcases (n.qs k).departures.head? with _ | _ | a
  · rfl
  · rfl
  simp only [destination_forget]
  rcases n.destination N k a with err | ⟨e, d⟩
  · rfl
  simp only
  rw [apply_ite nfgt]
  refine if_congr Iff.rfl rfl ?_
  have e3 : (if atCapacity (N.qc e) (n.forget.qs e) = true ∧ e ≠ (N.qc k).edge.idx then
        blocked N ({ n with unifCalls := n.unifCalls + d } : Net T R).forget k e
      else move N ({ n with unifCalls := n.unifCalls + d } : Net T R).forget k e t) =
      nfgt (if atCapacity (N.qc e) (n.qs e) = true ∧ e ≠ (N.qc k).edge.idx then
        blocked N { n with unifCalls := n.unifCalls + d } k e
      else move N { n with unifCalls := n.unifCalls + d } k e t) := by
    rw [apply_ite nfgt, blocked_forget, move_forget]; rfl
  show (match (if atCapacity (N.qc e) (n.forget.qs e) = true ∧ e ≠ (N.qc k).edge.idx then
        blocked N ({ n with unifCalls := n.unifCalls + d } : Net T R).forget k e
      else move N ({ n with unifCalls := n.unifCalls + d } : Net T R).forget k e t) with
    | Except.error e => Except.error e
    | Except.ok n' => pushBoth N n' k e (n.qs e).time) = _
  rw [e3]
  cases (if atCapacity (N.qc e) (n.qs e) = true ∧ e ≠ (N.qc k).edge.idx then
        blocked N { n with unifCalls := n.unifCalls + d } k e
      else move N { n with unifCalls := n.unifCalls + d } k e t) with
  | error err => rfl
  | ok m => exact pushBoth_forget N m k e (n.qs e).time

theorem arrival_forget (N : NetCfg T R) (n : Net T R) (k : Nat) :
    n.forget.arrival N k = nfgt (n.arrival N k) := by
  unfold arrival
  have e5 : (if (n.forget.qs k).active && n.forget.maxed N then setInactive (n.forget.qs k) else n.forget.qs k) =
      (if (n.qs k).active && n.maxed N then setInactive (n.qs k) else n.qs k).forget := by
    rw [apply_ite QS.forget]; rfl
  simp only [e5, nextEvent_forget]
  rcases nextEvent (N.qc k) (if (n.qs k).active && n.maxed N then setInactive (n.qs k) else n.qs k) with err | ⟨s, r⟩
  · rfl
  simp only [fgt2, setQ_forget]
  have e6 : s.forget.numTotal = s.numTotal := rfl
  rw [e6, setNum_forget]
  generalize (n.setQ k s).setNum (N.qc k).edge.idx s.numTotal = m
  rw [pushKey_forget, apply_ite nfgt]
  rfl

theorem step_forget (N : NetCfg T R) (n : Net T R) : n.forget.step N = nfgt (n.step N) := by
  unfold step
  rw [apply_ite nfgt]
  refine if_congr Iff.rfl rfl ?_
  have e1 : n.forget.heap = n.heap := rfl
  rw [e1]
  rcases n.heap.pop with _ | ⟨h, _ | ⟨t, k⟩⟩
  · rfl
  · rfl
  simp only
  rw [apply_ite nfgt, apply_ite nfgt, apply_ite nfgt]
  refine if_congr Iff.rfl rfl (if_congr Iff.rfl ?_ (if_congr Iff.rfl ?_ rfl))
  · exact departure_forget N { n with heap := h, t := t, numEvents := n.numEvents + 1 } k t
  · exact arrival_forget N { n with heap := h, t := t, numEvents := n.numEvents + 1 } k

theorem steps_forget (N : NetCfg T R) (m : Nat) (n : Net T R) : n.forget.steps N m = nfgt (n.steps N m) := by
  induction m generalizing n with
  | zero => rfl
  | succ m ih =>
    simp only [steps, step_forget]
    cases n.step N with
    | error e => rfl
    | ok n => exact ih n

theorem simulate_forget (N : NetCfg T R) (m : Nat) (n : Net T R) : n.forget.simulate N m = nfgt (n.simulate N m) := by
  unfold simulate
  rw [apply_ite nfgt, steps_forget]
  rfl

theorem activate_forget (N : NetCfg T R) (l : List Nat) (n : Net T R) :
    n.forget.activate N l = nfgt (n.activate N l) := by
  induction l generalizing n with
  | nil => rfl
  | cons e es ih =>
    simp only [activate]
    rw [apply_ite nfgt]
    refine if_congr Iff.rfl rfl ?_
    have e1 : n.forget.qs e = (n.qs e).forget := rfl
    rw [e1, setActive_forget]
    cases Verif.setActive (N.qc e) (n.qs e) with
    | error e => rfl
    | ok s =>
      simp only [fgt]
      rw [setQ_forget]
      exact ih ((n.setQ e s).setNum e s.numTotal)

theorem initialise_forget (N : NetCfg T R) (pick : List Nat → Nat → List Nat) (n : Net T R) (a : InitArg) :
    n.forget.initialise N pick a = nfgt (n.initialise N pick a) := by
  unfold initialise
  cases selection N pick a with
  | error e => rfl
  | ok l =>
    simp only
    cases sift N l with
    | error e => rfl
    | ok l =>
      simp only
      rw [apply_ite nfgt]
      refine if_congr Iff.rfl rfl ?_
      rw [activate_forget]
      cases activate N (truncate N l) n with
      | error e => rfl
      | ok n =>
        simp only [nfgt]
        rw [show keys N n.forget = keys N n from rfl]
        cases PQ.init (keys N n) N.nE <;> rfl

theorem clear_forget (N : NetCfg T R) (n : Net T R) : n.forget.clear N = (n.clear N).forget := by
  simp only [clear, forget]
  congr 1
  funext k
  exact Verif.clear_forget (N.qc k) (n.qs k)

theorem copy_forget (N : NetCfg T R) (n : Net T R) : n.forget.copy N = (n.copy N).map forget := by
  unfold copy
  rw [show keys N n.forget = keys N n from rfl, apply_ite (Option.map forget)]
  refine if_congr Iff.rfl ?_ rfl
  cases PQ.init (keys N n) N.nE <;> rfl

theorem collect_forget (n : Net T R) (b : Bool) (ks : List Nat) : (n.collect b ks).forget = n.forget := by
  induction ks generalizing n with
  | nil => rfl
  | cons k ks ih =>
    rw [collect, ih, ← setQ_forget]
    simp only [setQ, forget]
    congr 1
    exact Function.update_eq_self k _

theorem clearData_forget (n : Net T R) (ks : List Nat) : (n.clearData ks).forget = n.forget := by
  induction ks generalizing n with
  | nil => rfl
  | cons k ks ih =>
    rw [clearData, ih, ← setQ_forget]
    simp only [setQ, forget]
    congr 1
    exact Function.update_eq_self k _

end Net

/-- The calls that concern data only. -/
def NetOp.onData : NetOp R → Bool
  | .collect _ _ => true
  | .clearData _ => true
  | _ => false

theorem NetOp.run_forget (N : NetCfg T R) (n : Net T R) (op : NetOp R) :
    nfgt (op.run N n.forget) = nfgt (op.run N n) := by
  have key : ∀ x : Except DestErr (Net T R), nfgt (nfgt x) = nfgt x := by rintro (e | n) <;> rfl
  cases op with
  | step => simp only [run, Net.simulate_forget, key]
  | initialise pick a => simp only [run, Net.initialise_forget, key]
  | clear => simp only [run, Net.clear_forget]; rfl
  | collect b ks => simp only [run, nfgt, Net.collect_forget]; rfl
  | clearData ks => simp only [run, nfgt, Net.clearData_forget]; rfl
  | setProbs p => rfl
  | setBlocking bas => rfl
  | copy =>
    simp only [run, Net.copy_forget]
    cases n.copy N <;> rfl
  | setServers k m =>
    simp only [run]
    rw [show n.forget.qs k = (n.qs k).forget from rfl, setNumServers_forget, Net.setQ_forget]
    rfl
  | setInactive k =>
    simp only [run]
    rw [show n.forget.qs k = (n.qs k).forget from rfl, setInactive_forget, Net.setQ_forget]
    rfl

theorem NetOp.run_onData {N : NetCfg T R} {n : Net T R} {op : NetOp R} (h : op.onData = true) :
    ∃ n', op.run N n = .ok n' ∧ n'.forget = n.forget := by
  cases op <;> simp only [onData, Bool.false_eq_true] at h
  · exact ⟨_, rfl, Net.collect_forget _ _ _⟩
  · exact ⟨_, rfl, Net.clearData_forget _ _⟩

end Verif
