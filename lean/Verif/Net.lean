import Verif.PQ
import Verif.Routing
import Mathlib.Logic.Function.Basic

/-!
# The network

Model of the simulation part of `QueueNetwork`, `/repo/queueing_tool/network/queue_network.py`:
`__init__` (lines 313-320, 353-367), `blocking` (380-384), `time` (402-409), `clear` (602-610),
`clear_data` (637-640), `copy` (644-665), `initialize` (956-985), `next_event_description` (1001-1012),
`simulate` (1290-1300), `_simulate_next_event` (1303-1379), `start_collecting_data`,
`stop_collecting_data` (1407-1410, 1437-1440).

* The list `edge2queue` of queues is a function from positions `0 .. nE-1`; every access is guarded by
  `k < nE` (IndexError). The same holds for the array `num_agents`.
* Every random draw is an arbitrary stream: `unif i` is the value of the i-th call of `uniform()` in
  `Agent.desired_destination`; `jit i t` is `t + EPS * uniform(0.33, 0.66)` in the i-th use in line 1326.
* SIMPLIFIED: colours (`slow=True`), `_prev_edge` and `_qkey` only matter for drawing and are left out.
* SIMPLIFIED: `max_agents` is an integer or infinity; edge numbers given by the user are not negative.
-/

namespace Verif

/-- The parts of a network that do not change while it is simulated. -/
structure NetCfg (T R : Type*) where
  nE : Nat
  qc : Nat → QCfg T
  outEdges : Nat → List Nat
  maxAgents : Cap
  unif : Nat → R
  jit : Nat → T → T
  garbage : Nat → Nat → T × Nat

/-- The state of a network. -/
structure Net (T R : Type*) where
  qs : Nat → QS T
  numAgents : Nat → Int
  heap : PQ T
  t : T
  numEvents : Nat
  initialized : Bool
  bas : Bool
  probs : Nat → List R
  unifCalls : Nat
  jitCalls : Nat

section

variable {T R : Type*} [LinearOrder T] [OrderTop T] [Zero T] [LinearOrder R] [Add R]

/-- `PriorityQueue()`, priority_queue.pyx lines 20-40 without keys. -/
def PQ.empty : PQ T := ⟨[], 0, 0, []⟩

/-- A new network, queue_network.py lines 313-320, 353-367: `collect k` is the parameter `collect_data` of
queue `k`. -/
def Net.init (N : NetCfg T R) (collect : Nat → Bool) (bas : Bool) (probs : Nat → List R) : Net T R where
  qs k := QS.init (N.qc k) (collect k)
  numAgents _ := 0
  heap := PQ.empty
  t := 0
  numEvents := 0
  initialized := false
  bas := bas
  probs := probs
  unifCalls := 0
  jitCalls := 0

namespace Net

/-- Replace queue `k`. -/
def setQ (n : Net T R) (k : Nat) (s : QS T) : Net T R := { n with qs := Function.update n.qs k s }

/-- `self.num_agents[e] = x` -/
def setNum (n : Net T R) (e : Nat) (x : Int) : Net T R :=
  { n with numAgents := Function.update n.numAgents e x }

/-- `np.sum(self.num_agents)` -/
def total (N : NetCfg T R) (n : Net T R) : Int := ((List.range N.nE).map n.numAgents).sum

/-- `self.max_agents < np.infty and np.sum(self.num_agents) > self.max_agents - 1`,
queue_network.py lines 1342-1343, 1366-1367. -/
def maxed (N : NetCfg T R) (n : Net T R) : Bool :=
  match N.maxAgents with
  | .inf => false
  | .fin m => decide (m - 1 < n.total N)

/-- `self._fancy_heap.push(*q._key())` for queue `k` (`_key`: queue_servers.py lines 553-554). -/
def pushKey (N : NetCfg T R) (n : Net T R) (i k : Nat) : Except DestErr (Net T R) :=
  match n.heap.push (N.garbage i) (n.qs k).time (N.qc k).edge.idx with
  | none => .error (.mem .outOfBounds)
  | some h => .ok { n with heap := h }

/-- `q1._departures[0].desired_destination(self, q1.edge)`, queue_network.py line 1318 (agents.py lines
99-109 and 165-167; a ResourceAgent inherits from Agent). Also returns the number of `uniform()` calls. -/
def destination (N : NetCfg T R) (n : Net T R) (k1 : Nat) (a : Agent T) : Except DestErr (Nat × Nat) :=
  let v := (N.qc k1).edge.tgt
  let out := N.outEdges v
  match a.kind with
  | .greedy =>
    match greedyDest out (fun d => numberQueued (N.qc d) (n.qs d)) with
    | .error e => .error e
    | .ok e => .ok (e, 0)
  | _ =>
    match agentDest out (n.probs v) (N.unif n.unifCalls) with
    | .error e => .error e
    | .ok e => .ok (e, if out.length ≤ 1 then 0 else 1)

/-- The blocked branch, queue_network.py lines 1323-1329. -/
def blocked (N : NetCfg T R) (n : Net T R) (k1 e2 : Nat) : Except DestErr (Net T R) :=
  let s2 := n.qs e2
  let n := n.setQ e2 { s2 with numBlocked := s2.numBlocked + 1 }
  let n := n.setQ k1 (bumpHead (n.qs k1) 1)
  let arg : Option T := if n.bas then some (N.jit n.jitCalls (headTime (n.qs e2).departures)) else none
  match delayService (N.qc k1) (n.qs k1) arg with
  | .error e => .error (.py e)
  | .ok s1 => .ok { n.setQ k1 s1 with jitCalls := if n.bas then n.jitCalls + 1 else n.jitCalls }

/-- The other branch, queue_network.py lines 1331-1347. -/
def move (N : NetCfg T R) (n : Net T R) (k1 e2 : Nat) (q1t : T) : Except DestErr (Net T R) :=
  match nextEvent (N.qc k1) (n.qs k1) with
  | .error e => .error (.py e)
  | .ok (_, none) => .error (.py .attributeError)
  | .ok (s1, some a) =>
    let n := n.setQ k1 s1
    match addArrivalAgent (N.qc e2) (n.qs e2) { a with time := q1t } with
    | .error e => .error (.py e)
    | .ok s2 =>
      let n := n.setQ e2 s2
      let n := n.setNum (N.qc k1).edge.idx (n.qs k1).numTotal
      let n := n.setNum e2 (n.qs e2).numTotal
      let s2 := if (n.qs e2).active && n.maxed N then setInactive (n.qs e2) else n.qs e2
      match nextEvent (N.qc e2) s2 with
      | .error e => .error (.py e)
      | .ok (s2', _) =>
        let n := n.setQ e2 s2'
        .ok (n.setNum e2 (n.qs e2).numTotal)

/-- The pushes after a departure event, queue_network.py lines 1353-1363; `old2` is `q2k[0]`. -/
def pushBoth (N : NetCfg T R) (n : Net T R) (k1 e2 : Nat) (old2 : T) : Except DestErr (Net T R) :=
  if (n.qs e2).time ≠ old2 then
    match n.pushKey N (2 * n.numEvents) e2 with
    | .error e => .error e
    | .ok n' =>
      if (n'.qs k1).time < ⊤ ∧
          ((n'.qs k1).time, (N.qc k1).edge.idx) ≠ ((n'.qs e2).time, (N.qc e2).edge.idx) then
        n'.pushKey N (2 * n.numEvents + 1) k1
      else .ok n'
  else if (n.qs k1).time < ⊤ then n.pushKey N (2 * n.numEvents) k1
  else .ok n

/-- A departure event at queue `k1`, queue_network.py lines 1318-1363. -/
def departure (N : NetCfg T R) (n : Net T R) (k1 : Nat) (q1t : T) : Except DestErr (Net T R) :=
  match (n.qs k1).departures.head? with
  | some (.agent a) =>
    match n.destination N k1 a with
    | .error e => .error e
    | .ok (e2, draws) =>
      if N.nE ≤ e2 then .error (.py .indexError)
      else
        let n := { n with unifCalls := n.unifCalls + draws }
        let old2 := (n.qs e2).time
        match (if atCapacity (N.qc e2) (n.qs e2) = true ∧ e2 ≠ (N.qc k1).edge.idx then n.blocked N k1 e2
               else n.move N k1 e2 q1t) with
        | .error e => .error e
        | .ok n' => n'.pushBoth N k1 e2 old2
  | _ => .error (.py .attributeError)

/-- An arrival event at queue `k1`, queue_network.py lines 1366-1379. -/
def arrival (N : NetCfg T R) (n : Net T R) (k1 : Nat) : Except DestErr (Net T R) :=
  let s := if (n.qs k1).active && n.maxed N then setInactive (n.qs k1) else n.qs k1
  match nextEvent (N.qc k1) s with
  | .error e => .error (.py e)
  | .ok (s1, _) =>
    let n := (n.setQ k1 s1).setNum (N.qc k1).edge.idx s1.numTotal
    if (n.qs k1).time < ⊤ then n.pushKey N (2 * n.numEvents) k1 else .ok n

/-- `_simulate_next_event`, queue_network.py lines 1303-1379. -/
def step (N : NetCfg T R) (n : Net T R) : Except DestErr (Net T R) :=
  if n.heap.size = 0 then .ok { n with t := ⊤ }
  else
    match n.heap.pop with
    | none => .error (.mem .outOfBounds)
    | some (_, none) => .error (.py .typeError)
    | some (h, some (q1t, k1)) =>
      if N.nE ≤ k1 then .error (.py .indexError)
      else
        let event := nextEventDescription (N.qc k1) (n.qs k1)
        let n := { n with heap := h, t := q1t, numEvents := n.numEvents + 1 }
        if event = 2 then n.departure N k1 q1t
        else if event = 1 then n.arrival N k1
        else .ok n

/-- `for dummy in range(m): self._simulate_next_event(slow=False)`, queue_network.py lines 1295-1296. -/
def steps (N : NetCfg T R) : Nat → Net T R → Except DestErr (Net T R)
  | 0, n => .ok n
  | m + 1, n =>
    match n.step N with
    | .error e => .error e
    | .ok n => steps N m n

/-- `simulate(n=m)`, queue_network.py lines 1290-1296. -/
def simulate (N : NetCfg T R) (m : Nat) (n : Net T R) : Except DestErr (Net T R) :=
  if n.initialized then steps N m n else .error (.py .queueingToolError)

/-- `while self._t < until: self._simulate_next_event(slow=False)`, queue_network.py lines 1299-1300, with
at most `fuel` iterations; `none` = not finished within `fuel`. -/
def stepsUntil (N : NetCfg T R) (until_ : T) : Nat → Net T R → Option (Except DestErr (Net T R))
  | 0, n => if n.t < until_ then none else some (.ok n)
  | fuel + 1, n =>
    if n.t < until_ then
      match n.step N with
      | .error e => some (.error e)
      | .ok n => stepsUntil N until_ fuel n
    else some (.ok n)

/-- `simulate(t=d)`, queue_network.py lines 1290-1293, 1297-1300. -/
def simulateT [Add T] (N : NetCfg T R) (d : T) (fuel : Nat) (n : Net T R) :
    Option (Except DestErr (Net T R)) :=
  if n.initialized then stepsUntil N (n.t + d) fuel n else some (.error (.py .queueingToolError))

/-- The property `time`, queue_network.py lines 402-409; `none` = access outside an array. -/
def time (n : Net T R) : Option T :=
  if 0 < n.heap.size then
    match n.heap.arr[0]? with
    | none => none
    | some p => some (n.qs p.2).time
  else some ⊤

/-- Answer of `next_event_description`. -/
inductive Desc
  | nothing
  | arrival (e : Nat)
  | departure (e : Nat)
deriving DecidableEq, Repr

/-- The least of the keys `q._key()` (ordered as tuples), first element of the sorted list in
queue_network.py lines 1005-1007. -/
def leastKey (N : NetCfg T R) (n : Net T R) : Nat → Option (T × Nat)
  | 0 => none
  | k + 1 =>
    let key := ((n.qs k).time, (N.qc k).edge.idx)
    match leastKey N n k with
    | none => some key
    | some p => if key.1 < p.1 ∨ (key.1 = p.1 ∧ key.2 < p.2) then some key else some p

/-- `next_event_description`, queue_network.py lines 1001-1012; `none` = IndexError. -/
def description (N : NetCfg T R) (n : Net T R) : Option Desc :=
  if n.heap.size = 0 then some .nothing
  else
    match leastKey N n N.nE with
    | none => none
    | some (_, e) =>
      if N.nE ≤ e then none
      else if nextEventDescription (N.qc e) (n.qs e) = 1 then some (.arrival (N.qc e).edge.idx)
      else some (.departure (N.qc e).edge.idx)

/-- `for q in self.edge2queue: q.clear()` and the rest of `clear`, queue_network.py lines 602-610. -/
def clear (N : NetCfg T R) (n : Net T R) : Net T R :=
  { n with
    t := 0
    numEvents := 0
    numAgents := fun _ => 0
    heap := PQ.empty
    initialized := false
    qs := fun k => Verif.clear (N.qc k) (n.qs k) }

/-- `[q._key() for q in self.edge2queue if q._time < np.infty]`, queue_network.py lines 662, 983. -/
def keys (N : NetCfg T R) (n : Net T R) : List (T × Nat) :=
  ((List.range N.nE).filter fun k => decide ((n.qs k).time < ⊤)).map
    fun k => ((n.qs k).time, (N.qc k).edge.idx)

/-- `for ei in queues: set_active(); self.num_agents[ei] = ...`, queue_network.py lines 979-981. -/
def activate (N : NetCfg T R) : List Nat → Net T R → Except DestErr (Net T R)
  | [], n => .ok n
  | e :: es, n =>
    if N.nE ≤ e then .error (.py .indexError)
    else
      match Verif.setActive (N.qc e) (n.qs e) with
      | .error err => .error (.py err)
      | .ok s => activate N es ((n.setQ e s).setNum e s.numTotal)

/-- `queues[:m]` for an integer `m`. -/
def pySlice {α : Type*} (l : List α) (m : Int) : List α :=
  if 0 ≤ m then l.take m.toNat else l.take (l.length + m).toNat

/-- What is given to `initialize`: `nActive` only, or a selection of queues (the result of
`_get_queues`). -/
inductive InitArg
  | nActive (n : PyNum)
  | queues (l : List Nat)

/-- `[q.edge[2] for q in self.edge2queue if q.edge[3] != 0]`, queue_network.py line 958. -/
def candidates (N : NetCfg T R) : List Nat :=
  ((List.range N.nE).filter fun k => decide ((N.qc k).edge.etype ≠ 0)).map fun k => (N.qc k).edge.idx

/-- The selection made in queue_network.py lines 956-969. `pick l m` stands for
`np.random.choice(l, size=m, replace=False)`. -/
def selection (N : NetCfg T R) (pick : List Nat → Nat → List Nat) : InitArg → Except DestErr (List Nat)
  | .nActive (.int n) =>
    if 1 ≤ n then .ok (pick (candidates N) (min n.toNat (candidates N).length))
    else .error (.py .valueError)
  | .nActive _ => .error (.py .typeError)
  | .queues l => .ok l

/-- `[e for e in queues if self.edge2queue[e].edge[3] != 0]`, queue_network.py line 971. -/
def sift (N : NetCfg T R) : List Nat → Except DestErr (List Nat)
  | [] => .ok []
  | e :: es =>
    if N.nE ≤ e then .error (.py .indexError)
    else
      match sift N es with
      | .error err => .error err
      | .ok l => .ok (if (N.qc e).edge.etype ≠ 0 then e :: l else l)

/-- `if len(queues) > self.max_agents: queues = queues[:self.max_agents]`,
queue_network.py lines 976-977. -/
def truncate (N : NetCfg T R) (l : List Nat) : List Nat :=
  match N.maxAgents with
  | .inf => l
  | .fin m => if m < l.length then pySlice l m else l

/-- `initialize`, queue_network.py lines 956-985. -/
def initialise (N : NetCfg T R) (pick : List Nat → Nat → List Nat) (n : Net T R) (a : InitArg) :
    Except DestErr (Net T R) :=
  match selection N pick a with
  | .error e => .error e
  | .ok l =>
    match sift N l with
    | .error e => .error e
    | .ok l =>
      if l.length = 0 then .error (.py .queueingToolError)
      else
        match activate N (truncate N l) n with
        | .error e => .error e
        | .ok n =>
          match PQ.init (keys N n) N.nE with
          | none => .error (.py .indexError)
          | some h => .ok { n with heap := h, initialized := true }

/-- `copy`, queue_network.py lines 644-665: deep copies of everything but the heap. `none`: the
IndexError of the PriorityQueue constructor. The streams of random numbers are not part of the network
object; the copy continues them from the same place. -/
def copy (N : NetCfg T R) (n : Net T R) : Option (Net T R) :=
  if n.initialized then
    match PQ.init (keys N n) N.nE with
    | none => none
    | some h => some { n with heap := h }
  else some { n with heap := PQ.empty }

/-- `for k in queues: self.edge2queue[k].collect_data = b` (indices in range), queue_network.py lines 1409-1410,
1439-1440. -/
def collect (n : Net T R) (b : Bool) : List Nat → Net T R
  | [] => n
  | k :: ks => collect (n.setQ k { n.qs k with collectData := b }) b ks

/-- `for k in queues: self.edge2queue[k].data = {}`, queue_network.py lines 639-640. -/
def clearData (n : Net T R) : List Nat → Net T R
  | [] => n
  | k :: ks => clearData (n.setQ k { n.qs k with data := [] }) ks

end Net

end

end Verif
