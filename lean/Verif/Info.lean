import Verif.QueueInv2
import Mathlib.Order.WithBot
import Mathlib.Logic.Function.Basic

/-!
# Model of InfoQueue and InfoAgent

`queues/queue_extentions.py` lines 210-357.
-/

set_option linter.unusedSectionVars false

namespace Verif

section

variable {T : Type*} [LinearOrder T] [OrderTop T] [Zero T]

/-! ## InfoQueue as a LossQueue -/

/-- `InfoQueue._add_arrival()`, queue_extentions.py lines 318-343 (without an argument). Since `active` is a property
without a setter (queue_servers.py lines 335-337), `self.active = False` raises AttributeError. With an argument it is
the same as `QueueServer._add_arrival(agent)`: `addArrivalAgent`. -/
def infoAddArrival (c : QCfg T) (s : QS T) : Except Err (QS T) :=
  if s.nextCt ≤ s.currentT then
    let t := c.arrivalF s.arrCalls s.currentT
    let s1 := { s with nextCt := t, arrCalls := s.arrCalls + 1 }
    if c.deactiveT ≤ t then .error .attributeError
    else
      let a : Agent T := ⟨(c.edge.idx, s.oArrivals), t, 0, c.factory⟩
      match heappush Slot.time s1.arrivals (.agent a) with
      | none => .error .indexError
      | some arr =>
        let s2 := { s1 with
          numTotal := s1.numTotal + 1
          arrivals := arr
          oArrivals := s1.oArrivals + 1
          created := s1.created ++ [(a.id, t)] }
        .ok (bumpTime (if c.activeCap.lt s2.oArrivals then s2 else { s2 with active := false }))
  else .ok (bumpTime s)

/-- The arrival branch of `QueueServer.next_event` at an InfoQueue, queue_servers.py lines 606-636. -/
def infoArriveEvent (c : QCfg T) (s : QS T) : Except Err (QS T × Option (Agent T)) :=
  match heappop Slot.time s.arrivals with
  | none => .error .indexError
  | some (.infty, _) => .error .attributeError
  | some (.agent a, arr) =>
    let s := { s with arrivals := arr, currentT := a.time }
    match (if s.active then infoAddArrival c s else .ok s) with
    | .error e => .error e
    | .ok s =>
      let s := { s with numSystem := s.numSystem + 1, numArrivals := s.numArrivals + 1 }
      let b := if s.numServers.le s.numSystem then 0 else 1
      let s := if s.collectData then
          { s with data := s.data.append a.id ⟨a.time, 0, 0, s.queue.length + b, s.numSystem⟩ }
        else s
      let (s, a) := queueAction c s a 0
      if s.numServers.le s.numSystem then
        let s := if s.collectData then
            { s with data := s.data.modify a.id fun r => { r with start := a.time } } else s
        let a := { a with time := c.serviceF s.svcCalls a.time }
        let s := { s with svcCalls := s.svcCalls + 1 }
        let (s, a) := queueAction c s a 1
        match heappush Slot.time s.departures (.agent a) with
        | none => .error .indexError
        | some deps => .ok (updateTime { s with departures := deps }, none)
      else
        .ok (updateTime { s with queue := s.queue ++ [a] }, none)

/-- `QueueServer.next_event` at an InfoQueue, queue_servers.py lines 566-636. -/
def infoBaseEvent (c : QCfg T) (s : QS T) : Except Err (QS T × Option (Agent T)) :=
  if headTime s.departures < headTime s.arrivals then departEvent c s
  else if headTime s.arrivals < ⊤ then infoArriveEvent c s
  else .ok (s, none)

/-- The blocking branch of `LossQueue.next_event` at an InfoQueue, queue_servers.py lines 862-882. SIMPLIFIED: the log
`lost` shows `blocked + 1`; an InfoAgent counts its losses elsewhere (queue_extentions.py lines 240-241). -/
def infoBlockEvent (c : QCfg T) (s : QS T) : Except Err (QS T × Option (Agent T)) :=
  match heappop Slot.time s.arrivals with
  | none => .error .indexError
  | some (.infty, _) => .error .attributeError
  | some (.agent a, arr) =>
    let s := { s with
      numBlocked := s.numBlocked + 1
      numTotal := s.numTotal - 1
      arrivals := arr
      lost := s.lost ++ [{ a with blocked := a.blocked + 1 }]
      currentT := a.time }
    match (if s.active then infoAddArrival c s else .ok s) with
    | .error e => .error e
    | .ok s =>
      let s := if s.collectData then
          { s with data := s.data.append a.id ⟨a.time, 0, 0, s.queue.length, s.numSystem⟩ }
        else s
      .ok (updateTime s, none)

/-- `LossQueue.next_event` at an InfoQueue, queue_servers.py lines 854-882. -/
def infoLossEvent (c : QCfg T) (s : QS T) : Except Err (QS T × Option (Agent T)) :=
  if headTime s.departures < headTime s.arrivals then infoBaseEvent c s
  else if headTime s.arrivals < ⊤ then
    if (s.numServers.add c.buffer).lt s.numSystem then infoBaseEvent c s
    else infoBlockEvent c s
  else .ok (s, none)

/-- An operation at an InfoQueue, seen as a LossQueue: `next_event` and `set_active` (queue_servers.py lines
657-663) call the new `_add_arrival`. -/
def infoRun (c : QCfg T) (s : QS T) : QOp T → Except Err (QS T)
  | .next => match infoLossEvent c s with
    | .error e => .error e
    | .ok (s', _) => .ok s'
  | .setActive => if s.active then .ok s else infoAddArrival c { s with active := true }
  | op => op.run c s

/-! ## Information -/

/-- A row of `net_data`. `stamp` is the first column, `⊥` for -1 (nothing known; SIMPLIFIED: times are larger than -1).
`val` are `num_servers` (second column) and `num_system`, which divided by `num_servers` is the third column. -/
structure IRow (T : Type*) where
  stamp : WithBot T
  val : Option (Cap × Int)
deriving DecidableEq

/-- `[-1, -1, -1]` -/
def IRow.unknown : IRow T := ⟨⊥, none⟩

/-- `net_data` -/
abbrev NetInfo (T : Type*) := List (IRow T)

/-- What numpy raises when the first columns of two `net_data` of different sizes are compared and the result is used to select
rows: sizes other than 1 cannot be compared (ValueError), size 1 can, but the selection then fits only one of the two
(IndexError). -/
def sizeErr (k m : Nat) : Err := if k = 1 ∨ m = 1 then .indexError else .valueError

/-- `extract_information(agent)` for an InfoAgent with `net_data = m`, queue_extentions.py lines 313-316. -/
def extractInfo (net m : NetInfo T) : Except Err (NetInfo T) :=
  if net.length = m.length then .ok (net.zipWith (fun x y => if x.stamp < y.stamp then y else x) m)
  else .error (sizeErr net.length m.length)

/-- `InfoAgent.queue_action(queue)` at the InfoQueue with edge index `n`, queue_extentions.py lines 246-258; `row` is what
line 258 writes. For `stats` see `InfoStats.lean`. -/
def infoAction (n : Nat) (row : IRow T) (net m : NetInfo T) : Except Err (NetInfo T) :=
  if m.length = net.length then
    let m' := m.zipWith (fun x y => if x.stamp < y.stamp ∨ x.stamp = ⊥ then y else x) net
    if n < m'.length then .ok (m'.set n row) else .error .indexError
  else .error (sizeErr m.length net.length)

/-- `net_data` of the agent with the given id; `none` for agents of other classes. SIMPLIFIED: an agent is found by its
`agent_id`, which is unique in a network (C72). -/
abbrev Memory (T : Type*) := Nat × Nat → Option (NetInfo T)

/-- The calls of `queue_action` in `calls` one after the other. -/
def infoActions (n : Nat) (row : IRow T) (net : NetInfo T) : List ((Nat × Nat) × Nat) → Memory T → Except Err (Memory T)
  | [], mem => .ok mem
  | (id, _) :: calls, mem =>
    match mem id with
    | none => infoActions n row net calls mem
    | some m =>
      match infoAction n row net m with
      | .error e => .error e
      | .ok m => infoActions n row net calls (Function.update mem id (some m))

/-- The agents in `new` were created, with `net_data` as given: queue_extentions.py line 332. -/
def infoCreate (m : Option (NetInfo T)) : List ((Nat × Nat) × T) → Memory T → Memory T
  | [], mem => mem
  | (id, _) :: new, mem => infoCreate m new (Function.update mem id m)

/-- `agent.add_loss(self.edge)` for the agents `lost`, queue_extentions.py lines 240-241: IndexError if the agent knows
too few queues. -/
def infoLost (n : Nat) (mem : Memory T) : List (Agent T) → Except Err Unit
  | [] => .ok ()
  | a :: lost =>
    match mem a.id with
    | none => infoLost n mem lost
    | some m => if n < m.length then infoLost n mem lost else .error .indexError

/-- Queues, which of them are InfoQueues, their `net_size`. -/
structure ICfg (T : Type*) where
  qc : Nat → QCfg T
  info : Nat → Bool
  size : Nat → Nat

/-- Some queues, some of which are InfoQueues, and the agents that travel between them. -/
structure IWorld (T : Type*) where
  qs : Nat → QS T
  net : Nat → NetInfo T
  mem : Memory T

/-- All queues are new: queue_extentions.py lines 297-311. -/
def IWorld.init (C : ICfg T) (b : Bool) : IWorld T where
  qs k := QS.init (C.qc k) b
  net k := List.replicate (C.size k) IRow.unknown
  mem _ := none

/-- The first `if` of `InfoQueue.next_event`, queue_extentions.py lines 348-349. -/
def IWorld.gather (w : IWorld T) (k : Nat) : QOp T → Except Err (NetInfo T)
  | .next =>
    if headTime (w.qs k).arrivals < headTime (w.qs k).departures then
      match (w.qs k).arrivals.head? with
      | some (.agent a) =>
        match w.mem a.id with
        | some m => extractInfo (w.net k) m
        | none => .ok (w.net k)
      | _ => .ok (w.net k)
    else .ok (w.net k)
  | .clear => .ok (List.replicate (w.net k).length IRow.unknown)
  | _ => .ok (w.net k)

/-- Perform an operation at queue `k`: `next_event`, `clear` (queue_extentions.py lines 347-357), and the inherited ones.
The calls of `queue_action` (entered in `log`) all come after the last change of `_current_t` and `num_system`, and before
`set_num_servers` changes `num_servers` (queue_servers.py lines 582-636 and 693-701). SIMPLIFIED: queues of other classes
create no InfoAgents. -/
def IWorld.run (C : ICfg T) (w : IWorld T) (k : Nat) (op : QOp T) : Except Err (IWorld T) :=
  let s := w.qs k
  if C.info k then
    match w.gather k op with
    | .error e => .error e
    | .ok net =>
      match infoRun (C.qc k) s op with
      | .error e => .error e
      | .ok s' =>
        let mem := infoCreate (some (List.replicate net.length IRow.unknown)) (s'.created.drop s.created.length) w.mem
        match infoLost (C.qc k).edge.idx mem (s'.lost.drop s.lost.length) with
        | .error e => .error e
        | .ok _ =>
          match infoActions (C.qc k).edge.idx ⟨s'.currentT, some (s.numServers, s'.numSystem)⟩ net
              (s'.log.drop s.log.length) mem with
          | .error e => .error e
          | .ok mem => .ok ⟨Function.update w.qs k s', Function.update w.net k net, mem⟩
  else
    match op.run (C.qc k) s with
    | .error e => .error e
    | .ok s' => .ok { w with qs := Function.update w.qs k s'
                             mem := infoCreate none (s'.created.drop s.created.length) w.mem }

/-- Histories; `ok` restricts the operations. -/
inductive IReach (C : ICfg T) (b : Bool) (ok : Nat → QS T → QOp T → Prop) : IWorld T → Prop
  | init : IReach C b ok (IWorld.init C b)
  | step {w w' : IWorld T} (k : Nat) (op : QOp T) : IReach C b ok w → ok k (w.qs k) op → w.run C k op = .ok w' →
      IReach C b ok w'

end

end Verif
