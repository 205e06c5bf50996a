import Verif.GraphDraw

/-!
# Model of what `show_type` and `show_active` draw

queue_network.py lines 1160-1182 and 1219-1236, on the graph with its arrays of colours (`Canvas`).

SIMPLIFIED: the colours of the rims of vertices (`vertex_color`) are left out, except for the KeyError of reading one from the
colours of a queue; the colours are put back afterwards by `_update_all_colors` (`updateAll`).
-/

namespace Verif

namespace Canvas

variable {A P C : Type*}

/-- `for v in self.g.nodes(): self.g.set_vp(v, 'vertex_fill_color', ...)`; `col v` is the colour, or the exception raised on
the way to it. -/
def paintNodes (col : Nat → Except Err C) : List Nat → Canvas A P C → Except Err (Canvas A P C)
  | [], c => .ok c
  | v :: vs, c =>
    match col v with
    | .error e => .error e
    | .ok x =>
      match c.setVertexFill v x with
      | .error e => .error e
      | .ok c => paintNodes col vs c

/-- `for e in self.g.edges(): self.g.set_ep(e, 'edge_color', ...)`. -/
def paintEdges (col : Nat × Nat → Except Err C) : List (Nat × Nat) → Canvas A P C → Except Err (Canvas A P C)
  | [], c => .ok c
  | e :: es, c =>
    match col e with
    | .error x => .error x
    | .ok x =>
      match c.setEdgeColor e x with
      | .error x => .error x
      | .ok c => paintEdges col es c

/-- The two loops and the drawing. -/
def paintDraw (c : Canvas A P C) (vcol : Nat → Except Err C) (ecol : Nat × Nat → Except Err C) (arg : Option (Dict Nat P))
    (spring : Dict Nat P) : Except Err (Canvas A P C × Picture P C) :=
  match paintNodes vcol (Dict.keys c.g.adj) c with
  | .error e => .error e
  | .ok c =>
    match paintEdges ecol c.g.adj.edges c with
    | .error e => .error e
    | .ok c => c.draw arg spring

end Canvas

/-- The entries of `QueueNetwork.colors` used here, queue_network.py lines 279-289. -/
structure ShowCols (C : Type*) where
  highlight : C
  vActive : C
  vInactive : C
  eActive : C
  eInactive : C

variable {A P C : Type*}

/-- The fill colour of vertex `v`, queue_network.py lines 1219-1228; `pens k` is `colors.get('vertex_color')` of queue `k`. -/
def typeFill (cols : ShowCols C) (pens : Nat → Option C) (g : QGraph A) (t : Int) (v : Nat) : Except Err C :=
  if g.isEdge (v, v) then
    match g.adj.look v v with
    | none => .error .keyError
    | some x =>
      if x.etype = some t then
        match Dict.get? g.index (v, v) with
        | none => .error .keyError
        | some k => if (pens k).isSome then .ok cols.highlight else .error .keyError
      else .ok cols.vInactive
  else .ok cols.vInactive

/-- The colour of edge `e`, queue_network.py lines 1230-1234. -/
def typeLine (cols : ShowCols C) (g : QGraph A) (t : Int) (e : Nat × Nat) : Except Err C :=
  match g.adj.look e.1 e.2 with
  | none => .error .keyError
  | some x => .ok (if x.etype = some t then cols.eActive else cols.eInactive)

/-- `show_type(edge_type)` up to the drawing, queue_network.py lines 1219-1236. -/
def Canvas.showType (c : Canvas A P C) (cols : ShowCols C) (pens : Nat → Option C) (t : Int) (arg : Option (Dict Nat P))
    (spring : Dict Nat P) : Except Err (Canvas A P C × Picture P C) :=
  c.paintDraw (typeFill cols pens c.g t) (typeLine cols c.g t) arg spring

/-- `is_active` of vertex `v`, queue_network.py lines 1163-1169: the in-edges up to the first whose queue is active. -/
def anyActive (g : QGraph A) (act : Nat → Bool) : List (Nat × Nat) → Except Err Bool
  | [] => .ok false
  | e :: es =>
    match Dict.get? g.index e with
    | none => .error .keyError
    | some k => if act k then .ok true else anyActive g act es

/-- The fill colour of vertex `v`, queue_network.py lines 1161-1173; `act k` is `edge2queue[k]._active`. -/
def activeFill (cols : ShowCols C) (act : Nat → Bool) (g : QGraph A) (v : Nat) : Except Err C :=
  match anyActive g act (g.adj.edges.filter fun e => e.2 = v) with
  | .error e => .error e
  | .ok b => .ok (if b then cols.vActive else cols.vInactive)

/-- The colour of edge `e`, queue_network.py lines 1175-1180. -/
def activeLine (cols : ShowCols C) (act : Nat → Bool) (g : QGraph A) (e : Nat × Nat) : Except Err C :=
  match Dict.get? g.index e with
  | none => .error .keyError
  | some k => .ok (if act k then cols.eActive else cols.eInactive)

/-- `show_active()` up to the drawing, queue_network.py lines 1160-1182. -/
def Canvas.showActive (c : Canvas A P C) (cols : ShowCols C) (act : Nat → Bool) (arg : Option (Dict Nat P))
    (spring : Dict Nat P) : Except Err (Canvas A P C × Picture P C) :=
  c.paintDraw (activeFill cols act c.g) (activeLine cols act c.g) arg spring

/-! ## Copies -/

/-- `g.copy()` of networkx as `QueueNetwork.copy` uses it, queue_network.py line 645: `self.__class__()` makes the
`QueueNetworkDiGraph` of no data (graph_wrapper.py lines 232-250), so `edge_index` is `{}` and `_nE` is 0; then the nodes and
edges with their properties are put in by `add_nodes_from` and `add_edges_from`, which are not overridden. -/
def QGraph.nxCopy (g : QGraph A) : QGraph A := { (QGraph.ofAdj [] : QGraph A) with adj := g.adj }

/-- `g.copy()` with the arrays that concern drawing: the graph of no data has as many positions as nodes, so `pos` is an empty
array, not None. -/
def Canvas.nxCopy (c : Canvas A P C) : Canvas A P C :=
  { (Canvas.new (QGraph.ofAdj []) [] : Canvas A P C) with
    g := c.g.nxCopy, vpos := c.vpos, ecolA := c.ecolA, vfillA := c.vfillA }

end Verif
