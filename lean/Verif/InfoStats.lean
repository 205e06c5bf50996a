import Verif.Info

/-!
# Model of `InfoAgent.stats`

`queues/queue_extentions.py` lines 231-258. Here the calls of `queue_action` at an InfoQueue are recorded together with
what the agent finds in `queue.data`: `seen` is a list of the agents' ids and the last of their rows, in the order of the
calls. The code is that of `Info.lean`; each call of `queue_action` also enters `look` in `seen`.
-/

set_option linter.unusedSectionVars false

namespace Verif

section

variable {T : Type*} [LinearOrder T] [OrderTop T] [Zero T]

/-- `queue.data[id][-1]` if `id in queue.data`, queue_extentions.py lines 254-255. -/
def Data.last (d : Data T) (id : Nat × Nat) : Option (Row T) :=
  match d with
  | [] => none
  | (i, rs) :: rest => if i = id then rs.getLast? else Data.last rest id

/-- The calls of `queue_action` so far, with the row found. -/
abbrev Seen (T : Type*) := List ((Nat × Nat) × Option (Row T))

/-- What agent `a` finds in the queue. -/
def look (s : QS T) (a : Agent T) : (Nat × Nat) × Option (Row T) := (a.id, s.data.last a.id)

/-- `_service_from_queue`, queue_servers.py lines 491-498. -/
def seeService (c : QCfg T) (s : QS T) (v : Seen T) : Except Err (QS T × Seen T) :=
  match s.queue with
  | [] => .error .indexError
  | a :: rest =>
    let s := { s with queue := rest }
    let s := if s.collectData then
        { s with data := s.data.modify a.id fun r => { r with start := s.currentT } } else s
    let a := { a with time := c.serviceF s.svcCalls s.currentT }
    let s := { s with svcCalls := s.svcCalls + 1 }
    let v := v ++ [look s a]
    let (s, a) := queueAction c s a 1
    match heappush Slot.time s.departures (.agent a) with
    | none => .error .indexError
    | some deps => .ok ({ s with departures := deps }, v)

/-- The departure branch of `QueueServer.next_event`, queue_servers.py lines 582-603. -/
def seeDepart (c : QCfg T) (s : QS T) (v : Seen T) : Except Err (QS T × Seen T) :=
  match heappop Slot.time s.departures with
  | none => .error .indexError
  | some (.infty, _) => .error .attributeError
  | some (.agent a, deps) =>
    let s := { s with
      departures := deps
      currentT := a.time
      numTotal := s.numTotal - 1
      numSystem := s.numSystem - 1
      numDepartures := s.numDepartures + 1 }
    let s := if s.collectData then
        { s with data := s.data.modify a.id fun r => { r with dep := s.currentT } } else s
    let numServicing : Int := s.numSystem - s.queue.length
    match (if 0 < s.queue.length ∧ s.numServers.lt numServicing then seeService c s v
           else .ok (s, v)) with
    | .error e => .error e
    | .ok (s, v) =>
      let v := v ++ [look s a]
      let (s, _) := queueAction c s a 2
      .ok (updateTime s, v)

/-- The arrival branch of `QueueServer.next_event`, queue_servers.py lines 606-636. -/
def seeArrive (c : QCfg T) (s : QS T) (v : Seen T) : Except Err (QS T × Seen T) :=
  match heappop Slot.time s.arrivals with
  | none => .error .indexError
  | some (.infty, _) => .error .attributeError
  | some (.agent a, arr) =>
    let s := { s with arrivals := arr, currentT := a.time }
    match (if s.active then infoAddArrival c s else .ok s) with
    | .error e => .error e
    | .ok s =>
      let s := { s with numSystem := s.numSystem + 1, numArrivals := s.numArrivals + 1 }
      let b := if s.numServers.le s.numSystem then 0 else 1
      let s := if s.collectData then
          { s with data := s.data.append a.id ⟨a.time, 0, 0, s.queue.length + b, s.numSystem⟩ }
        else s
      let v := v ++ [look s a]
      let (s, a) := queueAction c s a 0
      if s.numServers.le s.numSystem then
        let s := if s.collectData then
            { s with data := s.data.modify a.id fun r => { r with start := a.time } } else s
        let a := { a with time := c.serviceF s.svcCalls a.time }
        let s := { s with svcCalls := s.svcCalls + 1 }
        let v := v ++ [look s a]
        let (s, a) := queueAction c s a 1
        match heappush Slot.time s.departures (.agent a) with
        | none => .error .indexError
        | some deps => .ok (updateTime { s with departures := deps }, v)
      else
        .ok (updateTime { s with queue := s.queue ++ [a] }, v)

/-- `LossQueue.next_event`, queue_servers.py lines 854-882. A blocked agent calls `add_loss` instead. -/
def seeNext (c : QCfg T) (s : QS T) (v : Seen T) : Except Err (QS T × Seen T) :=
  if headTime s.departures < headTime s.arrivals then seeDepart c s v
  else if headTime s.arrivals < ⊤ then
    if (s.numServers.add c.buffer).lt s.numSystem then seeArrive c s v
    else match infoBlockEvent c s with
      | .error e => .error e
      | .ok (s, _) => .ok (s, v)
  else .ok (s, v)

/-- `for _ in range(k): self._service_from_queue()`, queue_servers.py lines 695-696. -/
def seeMany (c : QCfg T) : Nat → QS T → Seen T → Except Err (QS T × Seen T)
  | 0, s, v => .ok (s, v)
  | k + 1, s, v =>
    match seeService c s v with
    | .error e => .error e
    | .ok (s, v) => seeMany c k s v

/-- The calls of `queue_action` in `set_num_servers(n)`, queue_servers.py lines 686-701; none if an exception is raised
before. -/
def seeServers (c : QCfg T) (s : QS T) (n : PyNum) (v : Seen T) : Seen T :=
  let go (new : Cap) : Seen T :=
    match agentsToQueue new s.numServers s.queue.length with
    | none => v
    | some k =>
      match seeMany c k s v with
      | .error _ => v
      | .ok (_, v) => v
  match n with
  | .other => v
  | .int n => if n ≤ 0 then v else go (.fin n)
  | .infty => go .inf

/-- An operation at an InfoQueue. -/
def seeRun (c : QCfg T) (s : QS T) (v : Seen T) : QOp T → Except Err (QS T × Seen T)
  | .next => seeNext c s v
  | .setServers n =>
    match infoRun c s (.setServers n) with
    | .error e => .error e
    | .ok s' => .ok (s', seeServers c s n v)
  | op =>
    match infoRun c s op with
    | .error e => .error e
    | .ok s' => .ok (s', v)

/-- How numpy calculates: `sub` is the difference of two floats, `pos` whether one is positive, `add` adds a float to an
int32 and converts the sum to an int32. -/
structure Meter (T V D : Type*) where
  sub : T → T → D
  pos : D → Bool
  add : V → D → V

/-- Row `n` of `stats`, queue_extentions.py line 234. SIMPLIFIED: the second and third number do not overflow. -/
structure Stat (V : Type*) where
  wait : V
  waits : Int
  losses : Int
deriving DecidableEq

variable {V D : Type*}

/-- Lines 254-257 of queue_extentions.py. -/
def Stat.act (M : Meter T V D) (σ : Stat V) : Option (Row T) → Stat V
  | none => σ
  | some r =>
    let tmp := M.sub r.start r.arr
    { σ with wait := M.add σ.wait tmp, waits := σ.waits + (if M.pos tmp then 1 else 0) }

/-- The row of `stats` for this queue of the agent `x` after the calls `v`, one after the other, and the blockings
`lost` (queue_extentions.py lines 240-241); it is `σ` at first. -/
def Stat.after (M : Meter T V D) (σ : Stat V) (x : Nat × Nat) (v : Seen T) (lost : List (Agent T)) : Stat V :=
  let σ := (v.filter fun p => p.1 = x).foldl (fun σ p => σ.act M p.2) σ
  { σ with losses := σ.losses + (lost.filter fun a => a.id = x).length }

end

end Verif
