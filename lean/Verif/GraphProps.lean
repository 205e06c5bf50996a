import Verif.GraphDraw

/-!
# Model of the properties of vertices and edges in graph/graph_wrapper.py

`ep`, `vp`, `set_ep`, `set_vp`, `vertex_properties`, `edge_properties`, `new_vertex_property`, `new_edge_property`,
`set_pos`, `add_edge`, `is_edge` and `freeze` of a `QueueNetworkDiGraph`, for properties of any name. `X` is the type of
Python values. A method gives the graph it leaves behind and the exception it raised, if any: most of them write before
they raise.

SIMPLIFIED: `_adj` is one dict from edges to their attributes (the methods here do not depend on the order of `edges()`);
vertices are natural numbers, so there is no index from the end; rows written into the arrays `pos` and `edge_color` have
the right length; positions from `nx.spring_layout` are an argument. Left out are the names of the dicts a graph consists of
(`edge_index`, `graph`, `_node`, `_adj`, `_succ`, `_pred`, `__dict__` and the like): as names of properties they would overwrite parts of
the graph.
-/

namespace Verif

/-- The Python values the methods themselves write: `None`, `0` and a row of four zeros. -/
class PyConsts (X : Type*) where
  none : X
  zero : X
  zeros : X

/-- Exceptions: Python's and `NetworkXError`. -/
inductive GErr
  | py (e : Err)
  | networkx
deriving DecidableEq, Repr

/-- A `QueueNetworkDiGraph` (graph_wrapper.py lines 232-250): the attributes of nodes and edges, `edge_index`, `_nE`, the
arrays (`none` = None) and whether `nx.freeze` was called. -/
structure PGraph (X : Type*) where
  nodes : Dict Nat (Dict String X)
  edges : Dict (Nat × Nat) (Dict String X)
  index : Dict (Nat × Nat) Nat
  nE : Nat
  pos : Option (List X)
  edgeColor : Option (List X)
  vertexColor : Option (List X)
  vertexFill : Option (List X)
  frozen : Bool

/-- `d.update(a)` -/
def Dict.update {K V : Type*} [DecidableEq K] (d a : Dict K V) : Dict K V := a.foldl (fun d p => Dict.set d p.1 p.2) d

namespace PGraph

variable {X : Type*}

/-- The value of `pos` of every node (`nx.get_node_attributes`, which skips nodes without it). -/
def posAttr (nodes : Dict Nat (Dict String X)) : List X := nodes.filterMap fun p => Dict.get? p.2 "pos"

/-- `QueueNetworkDiGraph(data)` for a DiGraph, graph_wrapper.py lines 232-250. -/
def new (nodes : Dict Nat (Dict String X)) (edges : Dict (Nat × Nat) (Dict String X)) : PGraph X where
  nodes := nodes
  edges := edges
  index := ((Dict.keys edges).insertionSort edgeLe).zipIdx
  nE := edges.length
  pos := if (posAttr nodes).length = nodes.length then some (posAttr nodes) else none
  edgeColor := none
  vertexColor := none
  vertexFill := none
  frozen := false

/-- `freeze()`, graph_wrapper.py lines 252-253. -/
def freeze (g : PGraph X) : PGraph X := { g with frozen := true }

/-- `is_edge(e)`, graph_wrapper.py lines 255-256. -/
def isEdge (g : PGraph X) (e : Nat × Nat) : Bool := (Dict.get? g.index e).isSome

/-- A node is added without attributes unless it is there (networkx). -/
def addNode (nodes : Dict Nat (Dict String X)) (v : Nat) : Dict Nat (Dict String X) :=
  match Dict.get? nodes v with
  | some _ => nodes
  | none => Dict.set nodes v []

/-- `add_edge(u, v, **attrs)`, graph_wrapper.py lines 258-263; on a frozen graph networkx has replaced the method by one that
raises. -/
def addEdge (g : PGraph X) (u v : Nat) (attrs : Dict String X) : PGraph X × Option GErr :=
  if g.frozen then (g, some .networkx)
  else
    let edges := Dict.set g.edges (u, v) (Dict.update ((Dict.get? g.edges (u, v)).getD []) attrs)
    let g := { g with nodes := addNode (addNode g.nodes u) v, edges := edges }
    match Dict.get? g.index (u, v) with
    | some _ => (g, none)
    | none => ({ g with index := Dict.set g.index (u, v) g.nE, nE := g.nE + 1 }, none)

/-- `vp(v, name)`, graph_wrapper.py lines 271-272. -/
def vp [PyConsts X] (g : PGraph X) (v : Nat) (name : String) : Except GErr X :=
  match Dict.get? g.nodes v with
  | none => .error (.py .keyError)
  | some d => .ok ((Dict.get? d name).getD PyConsts.none)

/-- `ep(e, name)`, graph_wrapper.py lines 268-269. -/
def ep [PyConsts X] (g : PGraph X) (e : Nat × Nat) (name : String) : Except GErr X :=
  match Dict.get? g.edges e with
  | none => .error (.py .keyError)
  | some d => .ok ((Dict.get? d name).getD PyConsts.none)

/-- An attribute of a graph that is one of the four arrays. -/
inductive Arr
  | pos | edgeColor | vertexColor | vertexFill
deriving DecidableEq, Repr

/-- `getattr(self, name)` for the arrays set in `__init__` (lines 241-248). -/
def arrOf (name : String) : Option Arr :=
  if name = "pos" then some .pos
  else if name = "edge_color" then some .edgeColor
  else if name = "vertex_color" then some .vertexColor
  else if name = "vertex_fill_color" then some .vertexFill
  else none

/-- The array. -/
def arr (g : PGraph X) : Arr → Option (List X)
  | .pos => g.pos
  | .edgeColor => g.edgeColor
  | .vertexColor => g.vertexColor
  | .vertexFill => g.vertexFill

/-- The graph with another array. -/
def setArr (g : PGraph X) (a : Arr) (l : List X) : PGraph X :=
  match a with
  | .pos => { g with pos := some l }
  | .edgeColor => { g with edgeColor := some l }
  | .vertexColor => { g with vertexColor := some l }
  | .vertexFill => { g with vertexFill := some l }

/-- `if hasattr(self, name): attr = getattr(self, name); attr[i] = value`, graph_wrapper.py lines 276-278 and 282-284. `has` says
which names, other than those of the arrays, are attributes of every graph (methods and views of networkx, `_nE`, ...); none
of them supports item assignment. `nx.freeze` adds the attribute `frozen`. -/
def writeAttr (has : String → Bool) (g : PGraph X) (name : String) (i : Nat) (x : X) : PGraph X × Option GErr :=
  match arrOf name with
  | some a =>
    match g.arr a with
    | none => (g, some (.py .typeError))
    | some l => if i < l.length then (g.setArr a (l.set i x), none) else (g, some (.py .indexError))
  | none => if has name || (g.frozen && name = "frozen") then (g, some (.py .typeError)) else (g, none)

/-- `set_vp(v, name, x)`, graph_wrapper.py lines 280-284. -/
def setVp (has : String → Bool) (g : PGraph X) (v : Nat) (name : String) (x : X) : PGraph X × Option GErr :=
  match Dict.get? g.nodes v with
  | none => (g, some (.py .keyError))
  | some d => writeAttr has { g with nodes := Dict.set g.nodes v (Dict.set d name x) } name v x

/-- `set_ep(e, name, x)`, graph_wrapper.py lines 274-278. The number of the edge is looked up only if the graph has an attribute
of this name. `attr[self.edge_index[e]] = x`: Python looks up the index first. -/
def setEp (has : String → Bool) (g : PGraph X) (e : Nat × Nat) (name : String) (x : X) : PGraph X × Option GErr :=
  match Dict.get? g.edges e with
  | none => (g, some (.py .keyError))
  | some d =>
    let g := { g with edges := Dict.set g.edges e (Dict.set d name x) }
    if (arrOf name).isSome || (has name || (g.frozen && name = "frozen")) then
      match Dict.get? g.index e with
      | none => (g, some (.py .keyError))
      | some i => writeAttr has g name i x
    else (g, none)

/-- `vertex_properties()`, graph_wrapper.py lines 286-290; the set is a list without repetitions. -/
def vertexProperties (g : PGraph X) : List String := (g.nodes.flatMap fun p => Dict.keys p.2).dedup

/-- `edge_properties()`, graph_wrapper.py lines 292-296. -/
def edgeProperties (g : PGraph X) : List String := (g.edges.flatMap fun p => Dict.keys p.2).dedup

/-- `new_vertex_property(name)`, graph_wrapper.py lines 298-304. -/
def newVertexProperty [PyConsts X] (g : PGraph X) (name : String) : PGraph X :=
  let g := { g with nodes := g.nodes.map fun p => (p.1, Dict.set p.2 name PyConsts.none) }
  let g := if name = "vertex_color" then
      { g with vertexColor := some (List.replicate g.nodes.length PyConsts.zero) } else g
  if name = "vertex_fill_color" then
    { g with vertexFill := some (List.replicate g.nodes.length PyConsts.zero) } else g

/-- `new_edge_property(name)`, graph_wrapper.py lines 306-310. -/
def newEdgeProperty [PyConsts X] (g : PGraph X) (name : String) : PGraph X :=
  let g := { g with edges := g.edges.map fun p => (p.1, Dict.set p.2 name PyConsts.none) }
  if name = "edge_color" then
    { g with edgeColor := some (List.replicate g.edges.length PyConsts.zeros) } else g

/-- `G._node[n][name] = value` for one item, `KeyError` ignored (networkx's `set_node_attributes`). -/
def setAttr (name : String) (nodes : Dict Nat (Dict String X)) (q : Nat × X) : Dict Nat (Dict String X) :=
  match Dict.get? nodes q.1 with
  | none => nodes
  | some d => Dict.set nodes q.1 (Dict.set d name q.2)

/-- `set_pos(pos)`, graph_wrapper.py lines 312-316. -/
def setPos (g : PGraph X) (pos : Dict Nat X) : PGraph X × Option GErr :=
  let g := { g with nodes := pos.foldl (setAttr "pos") g.nodes }
  match Canvas.lookAll pos (Dict.keys g.nodes) with
  | none => (g, some (.py .keyError))
  | some l => ({ g with pos := some l }, none)

/-- A call of one of the methods. -/
inductive Call (X : Type*)
  | setVp (v : Nat) (name : String) (x : X)
  | setEp (e : Nat × Nat) (name : String) (x : X)
  | newVertexProperty (name : String)
  | newEdgeProperty (name : String)
  | setPos (pos : Dict Nat X)
  | addEdge (u v : Nat) (attrs : Dict String X)
  | freeze

/-- One call. -/
def call [PyConsts X] (has : String → Bool) (g : PGraph X) : Call X → PGraph X × Option GErr
  | .setVp v name x => g.setVp has v name x
  | .setEp e name x => g.setEp has e name x
  | .newVertexProperty name => (g.newVertexProperty name, none)
  | .newEdgeProperty name => (g.newEdgeProperty name, none)
  | .setPos pos => g.setPos pos
  | .addEdge u v attrs => g.addEdge u v attrs
  | .freeze => (g.freeze, none)

/-- Any number of calls, one after another; exceptions are caught. -/
def calls [PyConsts X] (has : String → Bool) (g : PGraph X) (cs : List (Call X)) : PGraph X :=
  cs.foldl (fun g c => (g.call has c).1) g

end PGraph

end Verif
