import Verif.Heap
import Mathlib.Order.BoundedOrder.Basic

/-!
# Single queues

Model of `/repo/queueing_tool/queues/queue_servers.py` (QueueServer lines 81-783, LossQueue lines
786-882, NullQueue lines 885-956), of the agents in `/repo/queueing_tool/queues/agents.py`, and of
ResourceQueue/ResourceAgent in `/repo/queueing_tool/queues/queue_extentions.py` lines 10-208.

Conventions.

* `T` is the type of times: a linear order with a top element `⊤` (`numpy.infty`) and a `0`.
  No arithmetic is assumed: `arrival_f` and `service_f` are arbitrary functions of the call number
  and the argument, so every random or stateful behaviour is covered.
* `Except Err` models exceptions. The state after an exception is not modelled here, except for
  `setNumServers`, which returns it.
* The components `log`, `created` and `lost` of the state are observations: the calls
  `agent.queue_action(queue, stage)`, the calls of `AgentFactory` with the arrival time then set, and the
  agents that were turned away (after `add_loss`).
* SIMPLIFIED: `headTime` of an empty list is `⊤` (Python: IndexError). The lists always contain the
  sentinel `InftyAgent` (proved: `QInv`).
-/

namespace Verif

/-- Exceptions. -/
inductive Err
  | typeError | valueError | indexError | keyError | attributeError | queueingToolError
deriving DecidableEq, Repr

/-- A number of servers, a buffer size or a cap: an integer or `numpy.infty`. -/
inductive Cap
  | fin (n : Int)
  | inf
deriving DecidableEq, Repr

namespace Cap

/-- `k <= c` -/
def le (k : Int) : Cap → Bool
  | fin n => decide (k ≤ n)
  | inf => true

/-- `k < c` -/
def lt (k : Int) : Cap → Bool
  | fin n => decide (k < n)
  | inf => true

/-- `a + b` -/
def add : Cap → Cap → Cap
  | fin a, fin b => fin (a + b)
  | _, _ => inf

/-- `c + k` for an integer `k` -/
def addInt : Cap → Int → Cap
  | fin a, k => fin (a + k)
  | inf, _ => inf

/-- `a > b` -/
def gt : Cap → Cap → Bool
  | fin a, fin b => decide (b < a)
  | inf, fin _ => true
  | _, inf => false

/-- `2 * c` -/
def double : Cap → Cap
  | fin a => fin (2 * a)
  | inf => inf

end Cap

/-- Agent classes: `Agent` (agents.py 7-120), `GreedyAgent` (agents.py 123-167) and `ResourceAgent`
with its `_has_resource`, `_had_resource` flags (queue_extentions.py 10-54). -/
inductive AgentKind
  | plain
  | greedy
  | resource (has had : Bool)
deriving DecidableEq, Repr

/-- agents.py lines 38-41. -/
structure Agent (T : Type*) where
  id : Nat × Nat
  time : T
  blocked : Nat
  kind : AgentKind
deriving DecidableEq, Repr

/-- An element of `_arrivals`/`_departures`: an agent or the sentinel `InftyAgent` (agents.py
170-189). -/
inductive Slot (T : Type*)
  | infty
  | agent (a : Agent T)
deriving DecidableEq, Repr

/-- `_time` of an element; `InftyAgent._time = infty`. -/
def Slot.time {T : Type*} [Top T] : Slot T → T
  | .infty => ⊤
  | .agent a => a.time

/-- A data row `[arrival, service start, departure, queued, in system]`,
queue_servers.py lines 618-622. -/
structure Row (T : Type*) where
  arr : T
  start : T
  dep : T
  nq : Nat
  nsys : Int
deriving DecidableEq, Repr

/-- `self.data`: a dict from agent id to list of rows, as an association list in insertion order. -/
abbrev Data (T : Type*) := List ((Nat × Nat) × List (Row T))

/-- `if id not in data: data[id] = [row] else: data[id].append(row)`,
queue_servers.py lines 617-622. -/
def Data.append {T : Type*} (d : Data T) (id : Nat × Nat) (r : Row T) : Data T :=
  match d with
  | [] => [(id, [r])]
  | (i, rs) :: rest => if i = id then (i, rs ++ [r]) :: rest else (i, rs) :: Data.append rest id r

/-- Change the last row of a list. -/
def modLast {α : Type*} (f : α → α) : List α → List α
  | [] => []
  | [x] => [f x]
  | x :: xs => x :: modLast f xs

/-- `data[id][-1][i] = ...`, if `id` is in `data`: queue_servers.py lines 493-494, 588-589, 628. -/
def Data.modify {T : Type*} (d : Data T) (id : Nat × Nat) (f : Row T → Row T) : Data T :=
  match d with
  | [] => []
  | (i, rs) :: rest => if i = id then (i, modLast f rs) :: rest else (i, rs) :: Data.modify rest id f

/-- Queue classes. -/
inductive QKind
  | server | loss | null | resource
deriving DecidableEq, Repr

/-- The 4-tuple `edge`: source, target, edge index, edge type. -/
structure Edge where
  src : Nat
  tgt : Nat
  idx : Nat
  etype : Int
deriving DecidableEq, Repr

/-- Constructor parameters that are never changed by the library (queue_servers.py 278-282, 825-829;
queue_extentions.py 81-90). -/
structure QCfg (T : Type*) where
  kind : QKind
  edge : Edge
  servers : Cap
  arrivalF : Nat → T → T
  serviceF : Nat → T → T
  factory : AgentKind
  activeCap : Cap
  deactiveT : T
  buffer : Cap
  maxServers : Cap

/-- State of a queue, queue_servers.py lines 291-322, 828; queue_extentions.py lines 89-90. -/
structure QS (T : Type*) where
  numServers : Cap
  collectData : Bool
  numDepartures : Nat
  numSystem : Int
  data : Data T
  queue : List (Agent T)
  arrivals : List (Slot T)
  departures : List (Slot T)
  numArrivals : Nat
  oArrivals : Nat
  numTotal : Int
  active : Bool
  currentT : T
  time : T
  nextCt : T
  numBlocked : Nat
  overMax : Nat
  arrCalls : Nat
  svcCalls : Nat
  log : List ((Nat × Nat) × Nat)
  created : List ((Nat × Nat) × T)
  lost : List (Agent T)
deriving DecidableEq

section

variable {T : Type*} [LinearOrder T] [OrderTop T] [Zero T]

/-- The constructor, queue_servers.py lines 291-322. -/
def QS.init (c : QCfg T) (collect : Bool) : QS T where
  numServers := c.servers
  collectData := collect
  numDepartures := 0
  numSystem := 0
  data := []
  queue := []
  arrivals := [.infty]
  departures := [.infty]
  numArrivals := 0
  oArrivals := 0
  numTotal := 0
  active := false
  currentT := 0
  time := ⊤
  nextCt := 0
  numBlocked := 0
  overMax := 0
  arrCalls := 0
  svcCalls := 0
  log := []
  created := []
  lost := []

/-- `l[0]._time` -/
def headTime (l : List (Slot T)) : T :=
  match l with
  | [] => ⊤
  | s :: _ => s.time

/-- `_update_time`, queue_servers.py lines 779-783. -/
def updateTime (s : QS T) : QS T :=
  { s with time := if headTime s.arrivals < headTime s.departures then headTime s.arrivals
                   else headTime s.departures }

/-- The last statement of `_add_arrival`, queue_servers.py lines 380-381. -/
def bumpTime (s : QS T) : QS T :=
  { s with time := if headTime s.arrivals < headTime s.departures then headTime s.arrivals
                   else s.time }

/-- `_add_arrival(agent)`, queue_servers.py lines 359-361, 380-381;
NullQueue: lines 927-932. -/
def addArrivalAgent (c : QCfg T) (s : QS T) (a : Agent T) : Except Err (QS T) :=
  if c.kind = .null then
    .ok (if s.collectData then { s with data := s.data.append a.id ⟨a.time, 0, 0, 0, 0⟩ } else s)
  else
    match heappush Slot.time s.arrivals (.agent a) with
    | none => .error .indexError
    | some arr => .ok (bumpTime { s with numTotal := s.numTotal + 1, arrivals := arr })

/-- `_add_arrival()`, queue_servers.py lines 363-381; NullQueue: lines 927-932 (nothing). -/
def addArrival (c : QCfg T) (s : QS T) : Except Err (QS T) :=
  if c.kind = .null then .ok s
  else if s.nextCt ≤ s.currentT then
    let t := c.arrivalF s.arrCalls s.currentT
    let s1 := { s with nextCt := t, arrCalls := s.arrCalls + 1 }
    if c.deactiveT ≤ t then .ok { s1 with active := false }
    else
      let a : Agent T := ⟨(c.edge.idx, s.oArrivals), t, 0, c.factory⟩
      match heappush Slot.time s1.arrivals (.agent a) with
      | none => .error .indexError
      | some arr =>
        let s2 := { s1 with
          numTotal := s1.numTotal + 1
          arrivals := arr
          oArrivals := s1.oArrivals + 1
          created := s1.created ++ [(a.id, t)] }
        .ok (bumpTime (if c.activeCap.lt s2.oArrivals then s2 else { s2 with active := false }))
  else .ok (bumpTime s)

/-- `agent.queue_action(queue, stage)`: agents.py lines 111-120 (nothing) and, for a `ResourceAgent`
at a `ResourceQueue`, queue_extentions.py lines 46-54 with `set_num_servers` of lines 106-109. -/
def queueAction (c : QCfg T) (s : QS T) (a : Agent T) (stage : Nat) : QS T × Agent T :=
  let s := { s with log := s.log ++ [(a.id, stage)] }
  match c.kind, a.kind with
  | .resource, .resource has had =>
    if has then (s, { a with kind := .resource false true })
    else if Cap.lt 0 s.numServers then
      let n := s.numServers.addInt (-1)
      ({ s with numServers := n, overMax := s.overMax + (if n.gt c.maxServers then 1 else 0) },
        { a with kind := .resource true false })
    else (s, { a with kind := .resource has had })
  | _, _ => (s, a)

/-- `_service_from_queue`, queue_servers.py lines 491-498. -/
def serviceFromQueue (c : QCfg T) (s : QS T) : Except Err (QS T) :=
  match s.queue with
  | [] => .error .indexError
  | a :: rest =>
    let s := { s with queue := rest }
    let s := if s.collectData then
        { s with data := s.data.modify a.id fun r => { r with start := s.currentT } } else s
    let a := { a with time := c.serviceF s.svcCalls s.currentT }
    let s := { s with svcCalls := s.svcCalls + 1 }
    let (s, a) := queueAction c s a 1
    match heappush Slot.time s.departures (.agent a) with
    | none => .error .indexError
    | some deps => .ok { s with departures := deps }

/-- The departure branch of `QueueServer.next_event`, queue_servers.py lines 582-603. -/
def departEvent (c : QCfg T) (s : QS T) : Except Err (QS T × Option (Agent T)) :=
  match heappop Slot.time s.departures with
  | none => .error .indexError
  | some (.infty, _) => .error .attributeError
  | some (.agent a, deps) =>
    let s := { s with
      departures := deps
      currentT := a.time
      numTotal := s.numTotal - 1
      numSystem := s.numSystem - 1
      numDepartures := s.numDepartures + 1 }
    let s := if s.collectData then
        { s with data := s.data.modify a.id fun r => { r with dep := s.currentT } } else s
    let numServicing : Int := s.numSystem - s.queue.length
    match (if 0 < s.queue.length ∧ s.numServers.lt numServicing then serviceFromQueue c s
           else .ok s) with
    | .error e => .error e
    | .ok s =>
      let (s, a) := queueAction c s a 2
      .ok (updateTime s, some a)

/-- The arrival branch of `QueueServer.next_event`, queue_servers.py lines 606-636. -/
def arriveEvent (c : QCfg T) (s : QS T) : Except Err (QS T × Option (Agent T)) :=
  match heappop Slot.time s.arrivals with
  | none => .error .indexError
  | some (.infty, _) => .error .attributeError
  | some (.agent a, arr) =>
    let s := { s with arrivals := arr, currentT := a.time }
    match (if s.active then addArrival c s else .ok s) with
    | .error e => .error e
    | .ok s =>
      let s := { s with numSystem := s.numSystem + 1, numArrivals := s.numArrivals + 1 }
      let b := if s.numServers.le s.numSystem then 0 else 1
      let s := if s.collectData then
          { s with data := s.data.append a.id ⟨a.time, 0, 0, s.queue.length + b, s.numSystem⟩ }
        else s
      let (s, a) := queueAction c s a 0
      if s.numServers.le s.numSystem then
        let s := if s.collectData then
            { s with data := s.data.modify a.id fun r => { r with start := a.time } } else s
        let a := { a with time := c.serviceF s.svcCalls a.time }
        let s := { s with svcCalls := s.svcCalls + 1 }
        let (s, a) := queueAction c s a 1
        match heappush Slot.time s.departures (.agent a) with
        | none => .error .indexError
        | some deps => .ok (updateTime { s with departures := deps }, none)
      else
        .ok (updateTime { s with queue := s.queue ++ [a] }, none)

/-- `QueueServer.next_event`, queue_servers.py lines 566-636. -/
def baseEvent (c : QCfg T) (s : QS T) : Except Err (QS T × Option (Agent T)) :=
  if headTime s.departures < headTime s.arrivals then departEvent c s
  else if headTime s.arrivals < ⊤ then arriveEvent c s
  else .ok (s, none)

/-- The blocking branch of `LossQueue.next_event`, queue_servers.py lines 862-882
(`add_loss`: agents.py lines 61-65). -/
def blockEvent (c : QCfg T) (s : QS T) : Except Err (QS T × Option (Agent T)) :=
  match heappop Slot.time s.arrivals with
  | none => .error .indexError
  | some (.infty, _) => .error .attributeError
  | some (.agent a, arr) =>
    let s := { s with
      numBlocked := s.numBlocked + 1
      numTotal := s.numTotal - 1
      arrivals := arr
      lost := s.lost ++ [{ a with blocked := a.blocked + 1 }]
      currentT := a.time }
    match (if s.active then addArrival c s else .ok s) with
    | .error e => .error e
    | .ok s =>
      let s := if s.collectData then
          { s with data := s.data.append a.id ⟨a.time, 0, 0, s.queue.length, s.numSystem⟩ }
        else s
      .ok (updateTime s, none)

/-- `LossQueue.next_event`, queue_servers.py lines 854-882. -/
def lossEvent (c : QCfg T) (s : QS T) : Except Err (QS T × Option (Agent T)) :=
  if headTime s.departures < headTime s.arrivals then baseEvent c s
  else if headTime s.arrivals < ⊤ then
    if (s.numServers.add c.buffer).lt s.numSystem then baseEvent c s
    else blockEvent c s
  else .ok (s, none)

/-- `ResourceQueue.set_num_servers`, queue_extentions.py lines 106-109. -/
def resourceSetServers (c : QCfg T) (s : QS T) (n : Cap) : QS T :=
  { s with numServers := n, overMax := s.overMax + (if n.gt c.maxServers then 1 else 0) }

/-- Deposit of a resource, queue_extentions.py lines 139-155. -/
def depositEvent (c : QCfg T) (s : QS T) : Except Err (QS T × Option (Agent T)) :=
  match heappop Slot.time s.arrivals with
  | none => .error .indexError
  | some (.infty, _) => .error .attributeError
  | some (.agent a, arr) =>
    let s := { s with arrivals := arr, currentT := a.time, numTotal := s.numTotal - 1 }
    let s := resourceSetServers c s (s.numServers.addInt 1)
    let s := if s.collectData then
        { s with data := s.data.append a.id ⟨a.time, a.time, a.time, s.queue.length, s.numSystem⟩ }
      else s
    .ok (updateTime s, none)

/-- Blocking of a `ResourceAgent`, queue_extentions.py lines 160-174. -/
def resourceBlock (_c : QCfg T) (s : QS T) : Except Err (QS T × Option (Agent T)) :=
  match heappop Slot.time s.arrivals with
  | none => .error .indexError
  | some (.infty, _) => .error .attributeError
  | some (.agent a, arr) =>
    let s := { s with
      numBlocked := s.numBlocked + 1
      numArrivals := s.numArrivals + 1
      numTotal := s.numTotal - 1
      arrivals := arr
      lost := s.lost ++ [a]
      currentT := a.time }
    let s := if s.collectData then
        { s with data := s.data.append a.id ⟨a.time, 0, 0, s.queue.length, s.numSystem⟩ }
      else s
    .ok (updateTime s, none)

/-- `ResourceQueue.next_event`, queue_extentions.py lines 111-176. -/
def resourceEvent (c : QCfg T) (s : QS T) : Except Err (QS T × Option (Agent T)) :=
  match s.arrivals.head? with
  | some (.agent ⟨_, _, _, .resource has _⟩) =>
    if headTime s.departures < headTime s.arrivals then lossEvent c s
    else if headTime s.arrivals < ⊤ then
      if has then depositEvent c s
      else if s.numServers.lt s.numSystem then lossEvent c s
      else resourceBlock c s
    else .ok (s, none)
  | _ => lossEvent c s

/-- `next_event` of the four classes (NullQueue: queue_servers.py lines 940-941). -/
def nextEvent (c : QCfg T) (s : QS T) : Except Err (QS T × Option (Agent T)) :=
  match c.kind with
  | .server => baseEvent c s
  | .loss => lossEvent c s
  | .null => .ok (s, none)
  | .resource => resourceEvent c s

/-- `next_event_description`, queue_servers.py lines 638-655; NullQueue lines 937-938. -/
def nextEventDescription (c : QCfg T) (s : QS T) : Nat :=
  if c.kind = .null then 0
  else if headTime s.departures < headTime s.arrivals then 2
  else if headTime s.arrivals < ⊤ then 1
  else 0

/-- `at_capacity`, queue_servers.py lines 383-392 and 838-848. -/
def atCapacity (c : QCfg T) (s : QS T) : Bool :=
  match c.kind with
  | .server | .null => false
  | .loss | .resource => !(s.numServers.add c.buffer).lt s.numSystem

/-- `number_queued`, queue_servers.py lines 556-564; NullQueue lines 924-925. -/
def numberQueued (c : QCfg T) (s : QS T) : Nat :=
  if c.kind = .null then 0 else s.queue.length

/-- `set_active`, queue_servers.py lines 657-663. -/
def setActive (c : QCfg T) (s : QS T) : Except Err (QS T) :=
  if s.active then .ok s else addArrival c { s with active := true }

/-- `set_inactive`, queue_servers.py lines 665-667. -/
def setInactive (s : QS T) : QS T := { s with active := false }

/-- `delay_service(t)`, queue_servers.py lines 480-489; NullQueue lines 934-935.
SIMPLIFIED: when the heap's first element is the sentinel although agents are in service (all of them
with infinite departure time) Python would overwrite the sentinel's time; here that is an error. -/
def delayService (c : QCfg T) (s : QS T) (t : Option T) : Except Err (QS T) :=
  if c.kind = .null then .ok s
  else if 1 < s.departures.length then
    match heappop Slot.time s.departures with
    | none => .error .indexError
    | some (.infty, _) => .error .attributeError
    | some (.agent a, deps) =>
      let (t', calls) := match t with
        | none => (c.serviceF s.svcCalls a.time, s.svcCalls + 1)
        | some t => (t, s.svcCalls)
      match heappush Slot.time deps (.agent { a with time := t' }) with
      | none => .error .indexError
      | some deps' => .ok (updateTime { s with departures := deps', svcCalls := calls })
  else .ok s

/-- `q1._departures[0].blocked += 1`, queue_network.py line 1324; `k` times. -/
def bumpHead (s : QS T) (k : Nat) : QS T :=
  match s.departures with
  | .agent a :: rest => { s with departures := .agent { a with blocked := a.blocked + k } :: rest }
  | _ => s

/-- Argument of `set_num_servers`: an integer, the object `numpy.infty`, or anything else
(`isinstance(n, numbers.Integral)`, `n is not infty`, queue_servers.py line 686). -/
inductive PyNum
  | int (n : Int)
  | infty
  | other
deriving DecidableEq, Repr

/-- `for _ in range(k): self._service_from_queue()`, queue_servers.py lines 695-696. -/
def serviceMany (c : QCfg T) : Nat → QS T → Except Err (QS T)
  | 0, s => .ok s
  | k + 1, s =>
    match serviceFromQueue c s with
    | .error e => .error e
    | .ok s => serviceMany c k s

/-- `agents_to_queue`, queue_servers.py line 693. `none` = the float `nan` that `inf - inf` yields,
on which `range` raises TypeError. -/
def agentsToQueue (new old : Cap) (len : Nat) : Option Nat :=
  match new, old with
  | .fin n, .fin m => some (max (min (n - m) len) 0).toNat
  | .inf, .fin _ => some len
  | .fin _, .inf => some 0
  | .inf, .inf => none

/-- `set_num_servers(n)`, queue_servers.py lines 686-701; NullQueue lines 921-922; ResourceQueue
queue_extentions.py lines 106-109 (SIMPLIFIED: no type errors from comparing strange objects).
Returns the state even when an exception is raised. -/
def setNumServers (c : QCfg T) (s : QS T) (n : PyNum) : QS T × Option Err :=
  match c.kind with
  | .null => (s, none)
  | .resource =>
    match n with
    | .int n => (resourceSetServers c s (.fin n), none)
    | .infty => (resourceSetServers c s .inf, none)
    | .other => (s, some .typeError)
  | _ =>
    let go (new : Cap) : QS T × Option Err :=
      match agentsToQueue new s.numServers s.queue.length with
      | none => (s, some .typeError)
      | some k =>
        match serviceMany c k s with
        | .error e => (s, some e)
        | .ok s' =>
          let s' := if 0 < k then updateTime s' else s'
          ({ s' with numServers := new }, none)
    match n with
    | .other => (s, some .typeError)
    | .int n => if n ≤ 0 then (s, some .valueError) else go (.fin n)
    | .infty => go .inf

/-- `clear`, queue_servers.py lines 394-414; LossQueue 850-852; NullQueue 955-956 (nothing);
ResourceQueue queue_extentions.py 205-208. The observation logs restart. The counters of calls to the
user's functions go on. -/
def clear (c : QCfg T) (s : QS T) : QS T :=
  match c.kind with
  | .null => s
  | k =>
    { s with
      data := []
      numArrivals := 0
      oArrivals := 0
      numDepartures := 0
      numSystem := 0
      numTotal := 0
      currentT := 0
      time := ⊤
      nextCt := 0
      active := false
      queue := []
      arrivals := [.infty]
      departures := [.infty]
      numBlocked := if k = .server then s.numBlocked else 0
      overMax := if k = .resource then 0 else s.overMax
      log := []
      created := []
      lost := [] }

/-- `for dummy in range(n): self.next_event()`, queue_servers.py lines 763-765. -/
def simulateN (c : QCfg T) : Nat → QS T → Except Err (QS T)
  | 0, s => .ok s
  | n + 1, s =>
    match nextEvent c s with
    | .error e => .error e
    | .ok (s, _) => simulateN c n s

/-- A `while cond and self._time < infty: self.next_event()` loop (queue_servers.py lines 768-777)
with at most `fuel` iterations; `none` = not finished within `fuel`. -/
def simulateWhile (c : QCfg T) (cond : QS T → Bool) : Nat → QS T → Option (Except Err (QS T))
  | 0, s => if cond s ∧ s.time < ⊤ then none else some (.ok s)
  | fuel + 1, s =>
    if cond s ∧ s.time < ⊤ then
      match nextEvent c s with
      | .error e => some (.error e)
      | .ok (s, _) => simulateWhile c cond fuel s
    else some (.ok s)

/-- `simulate(t=d)`, queue_servers.py lines 766-769. -/
def simulateT [Add T] (c : QCfg T) (d : T) (fuel : Nat) (s : QS T) : Option (Except Err (QS T)) :=
  simulateWhile c (fun s' => decide (s'.currentT < s.currentT + d)) fuel s

/-- `simulate(nD=k)`, queue_servers.py lines 770-773. -/
def simulateD (c : QCfg T) (k : Nat) (fuel : Nat) (s : QS T) : Option (Except Err (QS T)) :=
  simulateWhile c (fun s' => decide (s'.numDepartures < s.numDepartures + k)) fuel s

/-- `simulate(nA=k)`, queue_servers.py lines 774-777. -/
def simulateA (c : QCfg T) (k : Nat) (fuel : Nat) (s : QS T) : Option (Except Err (QS T)) :=
  simulateWhile c (fun s' => decide (s'.oArrivals < s.oArrivals + k)) fuel s

end

end Verif
