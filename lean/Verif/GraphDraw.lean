import Verif.Graph
import Mathlib.Data.List.Basic

/-!
# Model of the drawing side of graph/graph_wrapper.py

The arrays `pos`, `edge_color` and `vertex_fill_color` of a `QueueNetworkDiGraph`, the methods that write them and the
geometry computed by `lines_scatter_args`. `P` is the type of positions, `C` the type of colours.

SIMPLIFIED: `vertex_color` is written by the same lines as `vertex_fill_color` and left out; positions from
`nx.spring_layout` are an argument; the other keyword arguments of matplotlib are left out; the vertices are natural
numbers, so there is no index from the end.
-/

namespace Verif

/-- A `QueueNetworkDiGraph` with the attributes that concern drawing: `vpos`, `ecolA`, `vfillA` are the properties of
nodes and edges kept by networkx, `pos`, `ecol`, `vfill` the arrays (`none` = None). -/
structure Canvas (A P C : Type*) where
  g : QGraph A
  vpos : Dict Nat P
  pos : Option (List P)
  ecolA : Dict (Nat × Nat) C
  ecol : Option (List C)
  vfillA : Dict Nat C
  vfill : Option (List C)

/-- What is drawn: the lines with their colours, the points with theirs. -/
structure Picture (P C : Type*) where
  segments : List (Option (P × P))
  lineCols : Option (List C)
  points : List P
  pointCols : Option (List C)

namespace Canvas

variable {A P C : Type*}

/-- The positions `[pos[v] for v in nodes]`; `none` = KeyError. -/
def lookAll (pos : Dict Nat P) : List Nat → Option (List P)
  | [] => some []
  | v :: vs =>
    match Dict.get? pos v with
    | none => none
    | some p => (lookAll pos vs).map (p :: ·)

/-- `nx.set_node_attributes(g, name=..., values=d)` (networkx): values for nodes that are not in the graph are dropped. -/
def setAttrs {V : Type*} (nodes : List Nat) (old : Dict Nat V) (d : Dict Nat V) : Dict Nat V :=
  d.foldl (fun a q => if q.1 ∈ nodes then Dict.set a q.1 q.2 else a) old

/-- `QueueNetworkDiGraph(data)`, graph_wrapper.py lines 232-250, for a graph whose nodes have the given `pos`. -/
def new (g : QGraph A) (vpos : Dict Nat P) : Canvas A P C where
  g := g
  vpos := vpos
  pos := if vpos.length = g.adj.length then lookAll vpos (Dict.keys g.adj) else none
  ecolA := []
  ecol := none
  vfillA := []
  vfill := none

/-- `set_pos(pos)`, graph_wrapper.py lines 312-316. -/
def setPos (c : Canvas A P C) (pos : Dict Nat P) : Except Err (Canvas A P C) :=
  match lookAll pos (Dict.keys c.g.adj) with
  | none => .error .keyError
  | some l => .ok { c with vpos := setAttrs (Dict.keys c.g.adj) c.vpos pos, pos := some l }

/-- `set_vp(v, 'pos', p)`, graph_wrapper.py lines 280-284. -/
def setVpPos (c : Canvas A P C) (v : Nat) (p : P) : Except Err (Canvas A P C) :=
  if v ∈ Dict.keys c.g.adj then
    match c.pos with
    | none => .error .typeError
    | some l => if v < l.length then .ok { c with vpos := Dict.set c.vpos v p, pos := some (l.set v p) } else .error .indexError
  else .error .keyError

/-- `add_edge(u, v)`, graph_wrapper.py lines 258-263. -/
def addEdge [EmptyCollection A] (c : Canvas A P C) (u v : Nat) : Canvas A P C := { c with g := c.g.addEdge u v }

/-- `set_ep(e, 'edge_type', t)`, graph_wrapper.py lines 274-278. -/
def setType (c : Canvas A P C) (e : Nat × Nat) (t : Int) : Except Err (Canvas A P C) :=
  match c.g.setEp e t with
  | none => .error .keyError
  | some g => .ok { c with g := g }

/-- `new_edge_property('edge_color')`, graph_wrapper.py lines 306-310; `zero` is a row of zeros. The property of every edge
becomes None. -/
def newEdgeColor (c : Canvas A P C) (zero : C) : Canvas A P C :=
  { c with ecolA := [], ecol := some (List.replicate c.g.adj.edges.length zero) }

/-- `set_ep(e, 'edge_color', x)`, graph_wrapper.py lines 274-278. -/
def setEdgeColor (c : Canvas A P C) (e : Nat × Nat) (x : C) : Except Err (Canvas A P C) :=
  match c.g.adj.look e.1 e.2 with
  | none => .error .keyError
  | some _ =>
    match Dict.get? c.g.index e with
    | none => .error .keyError
    | some i =>
      match c.ecol with
      | none => .error .typeError
      | some l => if i < l.length then .ok { c with ecolA := Dict.set c.ecolA e x, ecol := some (l.set i x) } else .error .indexError

/-- `new_vertex_property('vertex_fill_color')`, graph_wrapper.py lines 298-304. -/
def newVertexFill (c : Canvas A P C) (zero : C) : Canvas A P C :=
  { c with vfillA := [], vfill := some ((List.range c.g.adj.length).map fun _ => zero) }

/-- `set_vp(v, 'vertex_fill_color', x)`, graph_wrapper.py lines 280-284. -/
def setVertexFill (c : Canvas A P C) (v : Nat) (x : C) : Except Err (Canvas A P C) :=
  if v ∈ Dict.keys c.g.adj then
    match c.vfill with
    | none => .error .typeError
    | some l => if v < l.length then .ok { c with vfillA := Dict.set c.vfillA v x, vfill := some (l.set v x) } else .error .indexError
  else .error .keyError

/-- `for e in self.edges(): edge_pos[self.edge_index[e]] = (self.pos[e[0]], self.pos[e[1]])`, graph_wrapper.py lines
463-465. -/
def fillSegments (index : Dict (Nat × Nat) Nat) (pos : List P) :
    List (Nat × Nat) → List (Option (P × P)) → Except Err (List (Option (P × P)))
  | [], l => .ok l
  | e :: es, l =>
    match Dict.get? index e with
    | none => .error .keyError
    | some i =>
      match pos[e.1]?, pos[e.2]? with
      | some a, some b => if i < l.length then fillSegments index pos es (l.set i (some (a, b))) else .error .indexError
      | _, _ => .error .indexError

/-- `lines_scatter_args(pos=...)`, graph_wrapper.py lines 457-496: `arg` is the argument `pos`, `spring` the result of
`nx.spring_layout`. A segment `none` is the initial 0. -/
def draw (c : Canvas A P C) (arg : Option (Dict Nat P)) (spring : Dict Nat P) : Except Err (Canvas A P C × Picture P C) :=
  let go (c : Canvas A P C) : Except Err (Canvas A P C × Picture P C) :=
    match c.pos with
    | none => .error .typeError
    | some l =>
      match fillSegments c.g.index l c.g.adj.edges (List.replicate c.g.adj.edges.length none) with
      | .error e => .error e
      | .ok segs => .ok (c, ⟨segs, c.ecol, l, c.vfill⟩)
  match arg with
  | some d =>
    match c.setPos d with
    | .error e => .error e
    | .ok c => go c
  | none =>
    match c.pos with
    | some _ => go c
    | none =>
      match c.setPos spring with
      | .error e => .error e
      | .ok c => go c

end Canvas

/-- `get_edge_type(t)`, graph_wrapper.py lines 350-354. -/
def QGraph.getEdgeType {A : Type*} (g : QGraph A) (t : Int) : List (Nat × Nat) :=
  g.adj.edges.filter fun e => ((g.adj.look e.1 e.2).bind EAttr.etype) == some t

/-- `out_neighbours(v)` for a node `v`, graph_wrapper.py lines 265-266. -/
def QGraph.outNeighbours {A : Type*} (g : QGraph A) (v : Nat) : List Nat :=
  (g.adj.edges.filter fun e => e.1 == v).map Prod.snd

end Verif
