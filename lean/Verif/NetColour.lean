import Verif.Colour
import Verif.NetRun

/-!
# Colours of a network

Model of `_update_all_colors`, `_update_vertex_color`, `_update_graph_colors` and of
`_simulate_next_event(slow=True)`, which `animate` uses (queue_network.py lines 1302-1379 and 1534-1602), and of what
`show_active` and `show_type` do to colours (lines 1160-1183, 1224-1237).
-/

namespace Verif

/-- What colours depend on besides the queues: the dict `colors` and `coloring_sensitivity` of every queue, the
colours of the network for vertices, `in_edges`, and the number of the edge `(v, v)`, if there is one. -/
structure ColCfg (K : Type*) where
  cols : Nat → Colours K
  sens : Nat → K
  vfill : List K
  vpen : List K
  inEdges : Nat → List Nat
  loopAt : Nat → Option Nat

/-- The graph properties `edge_color`, `vertex_color`, `vertex_fill_color`, and `_prev_edge` (as the number of its
queue). -/
structure GCol (K : Type*) where
  edge : Nat × Nat → List K
  vcol : Nat → List K
  vfill : Nat → List K
  prev : Option Nat

section

variable {K : Type*} [Field K] [LinearOrder K]
variable {T R : Type*} [LinearOrder T] [OrderTop T] [Zero T] [LinearOrder R] [Add R]

/-- `self.edge2queue[k]._current_color(which)`. -/
def ColCfg.queue (C : ColCfg K) (N : NetCfg T R) (qs : Nat → QS T) (k which : Nat) : Except ColErr (List K) :=
  currentColour (N.qc k) (C.cols k) (C.sens k) (qs k) which

/-- The colour computed in `_update_vertex_color(v)`, queue_network.py lines 1560-1570. -/
def ColCfg.load (C : ColCfg K) (qs : Nat → QS T) (v : Nat) : Except ColErr (List K) :=
  vertexColour C.vfill ((C.inEdges v).map fun e => ((qs e).numSystem, (qs e).numServers))

/-- `_update_vertex_color(v)`, queue_network.py lines 1554-1573. -/
def updateVertex (C : ColCfg K) (N : NetCfg T R) (qs : Nat → QS T) (g : GCol K) (v : Nat) : Except ColErr (GCol K) :=
  match C.loopAt v with
  | none =>
    match C.load qs v with
    | .error e => .error e
    | .ok x => .ok { g with vfill := Function.update g.vfill v x, vcol := Function.update g.vcol v C.vpen }
  | some k =>
    if (N.qc k).edge.etype = 0 then
      match C.load qs v with
      | .error e => .error e
      | .ok x => .ok { g with vfill := Function.update g.vfill v x }
    else .ok g

/-- Lines 1539-1543 (and 1583-1587, 1594-1598) of queue_network.py: colours of the loop with queue `k`; the fill colour
goes to vertex `w`. -/
def paintLoop (C : ColCfg K) (N : NetCfg T R) (qs : Nat → QS T) (g : GCol K) (k w : Nat) : Except ColErr (GCol K) :=
  match C.queue N qs k 1 with
  | .error e => .error e
  | .ok x1 =>
    match C.queue N qs k 2 with
    | .error e => .error e
    | .ok x2 =>
      let g := { g with
        edge := Function.update g.edge ((N.qc k).edge.src, (N.qc k).edge.tgt) x1
        vcol := Function.update g.vcol (N.qc k).edge.tgt x2 }
      if (N.qc k).edge.etype = 0 then .ok g
      else
        match C.queue N qs k 0 with
        | .error e => .error e
        | .ok x => .ok { g with vfill := Function.update g.vfill w x }

/-- `self.g.set_ep(e, 'edge_color', q._current_color())` for the queue `k`. -/
def paintEdge (C : ColCfg K) (N : NetCfg T R) (qs : Nat → QS T) (g : GCol K) (k : Nat) : Except ColErr (GCol K) :=
  match C.queue N qs k 0 with
  | .error e => .error e
  | .ok x => .ok { g with edge := Function.update g.edge ((N.qc k).edge.src, (N.qc k).edge.tgt) x }

/-- `if do[v]: self._update_vertex_color(v); do[v] = False`, queue_network.py lines 1547-1552. -/
def touchVertex (C : ColCfg K) (N : NetCfg T R) (qs : Nat → QS T) (v : Nat) (p : GCol K × (Nat → Bool)) :
    Except ColErr (GCol K × (Nat → Bool)) :=
  if p.2 v then
    match updateVertex C N qs p.1 v with
    | .error e => .error e
    | .ok g => .ok (g, Function.update p.2 v false)
  else .ok p

/-- The body of the loop of `_update_all_colors`, queue_network.py lines 1537-1552. -/
def allStep (C : ColCfg K) (N : NetCfg T R) (qs : Nat → QS T) (p : GCol K × (Nat → Bool)) (k : Nat) :
    Except ColErr (GCol K × (Nat → Bool)) :=
  if (N.qc k).edge.src = (N.qc k).edge.tgt then
    match paintLoop C N qs p.1 k (N.qc k).edge.tgt with
    | .error e => .error e
    | .ok g => .ok (g, Function.update p.2 (N.qc k).edge.tgt false)
  else
    match paintEdge C N qs p.1 k with
    | .error e => .error e
    | .ok g =>
      match touchVertex C N qs (N.qc k).edge.tgt (g, p.2) with
      | .error e => .error e
      | .ok p => touchVertex C N qs (N.qc k).edge.src p

/-- The loop of `_update_all_colors` over the first `m` queues. -/
def updateFirst (C : ColCfg K) (N : NetCfg T R) (qs : Nat → QS T) (g : GCol K) :
    Nat → Except ColErr (GCol K × (Nat → Bool))
  | 0 => .ok (g, fun _ => true)
  | m + 1 =>
    match updateFirst C N qs g m with
    | .error e => .error e
    | .ok p => allStep C N qs p m

/-- `_update_all_colors()`, queue_network.py lines 1534-1552. -/
def updateAll (C : ColCfg K) (N : NetCfg T R) (qs : Nat → QS T) (g : GCol K) : Except ColErr (GCol K) :=
  match updateFirst C N qs g N.nE with
  | .error e => .error e
  | .ok p => .ok p.1

/-- One half of `_update_graph_colors`, queue_network.py lines 1579-1591 (1593-1602): colours for queue `k`, the
fill colour of a loop going to vertex `w`. -/
def paint (C : ColCfg K) (N : NetCfg T R) (qs : Nat → QS T) (g : GCol K) (k w : Nat) : Except ColErr (GCol K) :=
  if (N.qc k).edge.src = (N.qc k).edge.tgt then paintLoop C N qs g k w
  else
    match paintEdge C N qs g k with
    | .error e => .error e
    | .ok g => updateVertex C N qs g (N.qc k).edge.tgt

/-- `_update_graph_colors(qedge)` for the queue `k`, queue_network.py lines 1575-1602. Note that in lines 1586-1587 the
fill colour of the previous loop goes to `v`, the target of the present edge. -/
def updateGraph (C : ColCfg K) (N : NetCfg T R) (qs : Nat → QS T) (g : GCol K) (k : Nat) : Except ColErr (GCol K) :=
  match g.prev with
  | none => paint C N qs g k (N.qc k).edge.tgt
  | some p =>
    match paint C N qs g p (N.qc k).edge.tgt with
    | .error e => .error e
    | .ok g => paint C N qs g k (N.qc k).edge.tgt

/-- `self._update_graph_colors(qedge=q.edge); self._prev_edge = q.edge`. -/
def showQueue (C : ColCfg K) (N : NetCfg T R) (qs : Nat → QS T) (g : GCol K) (k : Nat) : Except ColErr (GCol K) :=
  match updateGraph C N qs g k with
  | .error e => .error e
  | .ok g => .ok { g with prev := some k }

/-- Exceptions of an event with colours. -/
inductive SlowErr
  | ev (e : DestErr)
  | col (e : ColErr)

namespace Net

/-- The branch queue_network.py lines 1331-1351 with `slow=True`. -/
def slowMove (C : ColCfg K) (N : NetCfg T R) (n : Net T R) (g : GCol K) (k1 e2 : Nat) (q1t : T) :
    Except SlowErr (Net T R × GCol K) :=
  match nextEvent (N.qc k1) (n.qs k1) with
  | .error e => .error (.ev (.py e))
  | .ok (_, none) => .error (.ev (.py .attributeError))
  | .ok (s1, some a) =>
    let n := n.setQ k1 s1
    match addArrivalAgent (N.qc e2) (n.qs e2) { a with time := q1t } with
    | .error e => .error (.ev (.py e))
    | .ok s2 =>
      let n := n.setQ e2 s2
      let n := n.setNum (N.qc k1).edge.idx (n.qs k1).numTotal
      let n := n.setNum e2 (n.qs e2).numTotal
      match showQueue C N n.qs g k1 with
      | .error e => .error (.col e)
      | .ok g =>
        let s2 := if (n.qs e2).active && n.maxed N then setInactive (n.qs e2) else n.qs e2
        match nextEvent (N.qc e2) s2 with
        | .error e => .error (.ev (.py e))
        | .ok (s2', _) =>
          let n := n.setQ e2 s2'
          let n := n.setNum e2 (n.qs e2).numTotal
          match showQueue C N n.qs g e2 with
          | .error e => .error (.col e)
          | .ok g => .ok (n, g)

/-- A departure event with `slow=True`, queue_network.py lines 1318-1363. -/
def slowDeparture (C : ColCfg K) (N : NetCfg T R) (n : Net T R) (g : GCol K) (k1 : Nat) (q1t : T) :
    Except SlowErr (Net T R × GCol K) :=
  match (n.qs k1).departures.head? with
  | some (.agent a) =>
    match n.destination N k1 a with
    | .error e => .error (.ev e)
    | .ok (e2, draws) =>
      if N.nE ≤ e2 then .error (.ev (.py .indexError))
      else
        let n := { n with unifCalls := n.unifCalls + draws }
        let old2 := (n.qs e2).time
        if atCapacity (N.qc e2) (n.qs e2) = true ∧ e2 ≠ (N.qc k1).edge.idx then
          match n.blocked N k1 e2 with
          | .error e => .error (.ev e)
          | .ok n =>
            match n.pushBoth N k1 e2 old2 with
            | .error e => .error (.ev e)
            | .ok n => .ok (n, g)
        else
          match n.slowMove C N g k1 e2 q1t with
          | .error e => .error e
          | .ok (n, g) =>
            match n.pushBoth N k1 e2 old2 with
            | .error e => .error (.ev e)
            | .ok n => .ok (n, g)
  | _ => .error (.ev (.py .attributeError))

/-- An arrival event with `slow=True`, queue_network.py lines 1366-1379. -/
def slowArrival (C : ColCfg K) (N : NetCfg T R) (n : Net T R) (g : GCol K) (k1 : Nat) :
    Except SlowErr (Net T R × GCol K) :=
  let s := if (n.qs k1).active && n.maxed N then setInactive (n.qs k1) else n.qs k1
  match nextEvent (N.qc k1) s with
  | .error e => .error (.ev (.py e))
  | .ok (s1, _) =>
    let n := (n.setQ k1 s1).setNum (N.qc k1).edge.idx s1.numTotal
    match showQueue C N n.qs g k1 with
    | .error e => .error (.col e)
    | .ok g =>
      if (n.qs k1).time < ⊤ then
        match n.pushKey N (2 * n.numEvents) k1 with
        | .error e => .error (.ev e)
        | .ok n => .ok (n, g)
      else .ok (n, g)

/-- `_simulate_next_event(slow=True)`, queue_network.py lines 1302-1379. -/
def slowStep (C : ColCfg K) (N : NetCfg T R) (n : Net T R) (g : GCol K) : Except SlowErr (Net T R × GCol K) :=
  if n.heap.size = 0 then .ok ({ n with t := ⊤ }, g)
  else
    match n.heap.pop with
    | none => .error (.ev (.mem .outOfBounds))
    | some (_, none) => .error (.ev (.py .typeError))
    | some (h, some (q1t, k1)) =>
      if N.nE ≤ k1 then .error (.ev (.py .indexError))
      else
        let event := nextEventDescription (N.qc k1) (n.qs k1)
        let n := { n with heap := h, t := q1t, numEvents := n.numEvents + 1 }
        if event = 2 then n.slowDeparture C N g k1 q1t
        else if event = 1 then n.slowArrival C N g k1
        else .ok (n, g)

/-- Frames of an animation: `_simulate_next_event(slow=True)` `m` times, queue_network.py lines 528-536. -/
def slowSteps (C : ColCfg K) (N : NetCfg T R) : Nat → Net T R → GCol K → Except SlowErr (Net T R × GCol K)
  | 0, n, g => .ok (n, g)
  | m + 1, n, g =>
    match n.slowStep C N g with
    | .error e => .error e
    | .ok (n, g) => slowSteps C N m n g

end Net

/-- The colours that `show_active` draws, queue_network.py lines 1160-1180. -/
def activeColours (C : ColCfg K) (N : NetCfg T R) (qs : Nat → QS T) (vOn vOff eOn eOff grey : List K)
    (g : GCol K) : GCol K :=
  { g with
    vcol := fun _ => grey
    vfill := fun v => if (C.inEdges v).any fun e => (qs e).active then vOn else vOff
    edge := fun e =>
      match (List.range N.nE).find? fun k => decide (((N.qc k).edge.src, (N.qc k).edge.tgt) = e) with
      | none => g.edge e
      | some k => if (qs k).active then eOn else eOff }

end

end Verif
