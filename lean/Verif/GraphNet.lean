import Verif.Graph
import Verif.Net
import Verif.Routing

/-!
# Model of how a network is made from a graph

`_prepare_graph`, `_set_queues` (graph/graph_preparation.py), `QueueNetwork.__init__`, `_get_queues`,
`reset_colors` (network/queue_network.py).
-/

namespace Verif

section

variable {A : Type*}

/-- `[g.edge_index[e] for e in es]`; `none` = KeyError. -/
def QGraph.indices (g : QGraph A) : List (Nat × Nat) → Option (List Nat)
  | [] => some []
  | e :: es =>
    match Dict.get? g.index e, g.indices es with
    | some k, some ks => some (k :: ks)
    | _, _ => none

/-! ## `_get_queues` -/

/-- The argument `queues`. -/
inductive QueueSel
  | none
  | one (k : Nat)
  | many (ks : List Nat)

/-- The argument `edge`: a pair, a list of pairs, a tuple whose members are edges, a list with a member that is
not of length 2. -/
inductive EdgeSel
  | none
  | pair (u v : Nat)
  | list (es : List (Nat × Nat))
  | tuple (es : List (Nat × Nat))
  | ragged

/-- The argument `edge_type`. -/
inductive TypeSel
  | none
  | one (t : Int)
  | many (ts : List Int)

/-- The part of `_get_queues` about edge types, queue_network.py lines 1624-1632. -/
def QGraph.ofTypes (g : QGraph A) (ts : List Int) : Except Err (List Nat) :=
  match g.indices (g.adj.edges.filter fun e =>
    match g.adj.look e.1 e.2 with
    | some ⟨some t, _⟩ => decide (t ∈ ts)
    | _ => false) with
  | some ks => .ok ks
  | none => .error .keyError

/-- `_get_queues(g, queues, edge, edge_type)`, queue_network.py lines 1605-1637. -/
def QGraph.getQueues (g : QGraph A) (qs : QueueSel) (es : EdgeSel) (ts : TypeSel) : Except Err (List Nat) :=
  match qs with
  | .one k => .ok [k]
  | .many ks => .ok ks
  | .none =>
    match es with
    | .pair u v =>
      match Dict.get? g.index (u, v) with
      | some k => .ok [k]
      | none => .error .keyError
    | .list [] => .error .indexError
    | .list es =>
      match g.indices es with
      | some ks => .ok ks
      | none => .error .keyError
    | .tuple [] => .error .indexError
    | .tuple _ => .ok (List.range g.adj.edges.length)
    | .ragged => .ok (List.range g.adj.edges.length)
    | .none =>
      match ts with
      | .one t => g.ofTypes [t]
      | .many ts => g.ofTypes ts
      | .none => .ok (List.range g.adj.edges.length)

/-! ## Queues -/

/-- The keyword arguments of a queue: `num_servers` if given, and the rest. -/
structure QArgs (B : Type*) where
  servers : Option Nat
  rest : B
deriving DecidableEq, Repr

/-- A queue that was created: its class, the edge it was told, its arguments. -/
structure QSpec (C B : Type*) where
  cls : C
  edge : Edge
  args : QArgs B
deriving DecidableEq, Repr

variable {C B : Type*}

/-- `for k in set(default) - set(given): given[k] = default[k]`, queue_network.py lines 335-336 and (with the
keys of `q_classes` and `{}`) 341-342. The order in which Python visits the set is not modelled. -/
def complete {V : Type*} (given dflt : Dict Int V) : Dict Int V :=
  dflt.foldl (fun d p => if (Dict.get? d p.1).isSome then d else Dict.set d p.1 p.2) given

/-- One round of the loop of `_set_queues`, graph_preparation.py lines 163-172. `cap v` = `g.vp(v, 'cap')` when
some vertex has this property (`has_cap`). `num_servers` is written into the dict shared by all edges of
this type. -/
def setQueue (g : QGraph A) (cls : Dict Int C) (cap : Option (Nat → Option Nat)) (e : Nat × Nat)
    (args : Dict Int (QArgs B)) (qs : List (Option (QSpec C B))) :
    Except Err (Dict Int (QArgs B) × List (Option (QSpec C B))) :=
  match (g.adj.look e.1 e.2).bind (·.etype), Dict.get? g.index e with
  | some et, some k =>
    match Dict.get? args et, Dict.get? cls et with
    | some a, some c =>
      let a' : QArgs B :=
        match cap, a.servers with
        | some cap, none => { a with servers := some (max ((cap e.2).getD 0) 1) }
        | _, _ => a
      .ok (Dict.set args et a', qs.set k (some ⟨c, ⟨e.1, e.2, k, et⟩, a'⟩))
    | _, _ => .error .keyError
  | _, _ => .error .keyError

/-- `_set_queues`, graph_preparation.py lines 160-174. -/
def setQueues (g : QGraph A) (cls : Dict Int C) (cap : Option (Nat → Option Nat)) :
    List (Nat × Nat) → Dict Int (QArgs B) → List (Option (QSpec C B)) → Except Err (List (Option (QSpec C B)))
  | [], _, qs => .ok qs
  | e :: es, args, qs =>
    match setQueue g cls cap e args qs with
    | .error err => .error err
    | .ok (args, qs) => setQueues g cls cap es args qs

/-- The queues of `QueueNetwork(g, q_classes, q_args)`, queue_network.py lines 332-355; `dflt` = `default_classes`,
`∅` = `{}`. -/
def makeQueues [EmptyCollection B] (g : QGraph A) (given dflt : Dict Int C) (args : Dict Int (QArgs B))
    (cap : Option (Nat → Option Nat)) : Except Err (List (Option (QSpec C B))) :=
  let cls := complete given dflt
  setQueues g cls cap g.adj.edges (complete args (cls.map fun p => (p.1, ⟨none, ∅⟩)))
    (List.replicate g.adj.edges.length none)

/-- `[g.edge_index[e] for e in sorted(g.out_edges(v))]`, queue_network.py line 364. -/
def QGraph.outEdges (g : QGraph A) (v : Nat) : Option (List Nat) :=
  g.indices ((((Dict.get? g.adj v).getD []).map fun q => (v, q.1)).insertionSort edgeLe)

/-- `[g.edge_index[e] for e in sorted(g.in_edges(v))]`, queue_network.py line 365. -/
def QGraph.inEdges (g : QGraph A) (v : Nat) : Option (List Nat) :=
  g.indices ((g.adj.edges.filter fun e => e.2 = v).insertionSort edgeLe)

/-- `self.out_edges[v] = ...` for the vertices in turn, queue_network.py lines 357-366: an IndexError if a vertex is
not below the number of vertices. -/
def QGraph.allOut (g : QGraph A) : Except Err (Nat → List Nat) :=
  if ∀ v ∈ Dict.keys g.adj, v < g.adj.length then .ok fun v => (g.outEdges v).getD []
  else .error .indexError

/-- What `_prepare_graph` does to the graph, graph_preparation.py lines 113-121: with `adjust_graph` the graph is made
anew from its dict of dicts, which keeps no vertex property but `pos`; so `cap` is lost. -/
def prepare [EmptyCollection A] (g : QGraph A) (cap : Option (Nat → Option Nat)) (adjust : Bool) :
    Except Err (QGraph A × Option (Nat → Option Nat)) :=
  if adjust then
    match Adj.adjacency2graph (.dicts g.adj) .none true with
    | .error e => .error e
    | .ok a => .ok (QGraph.ofAdj a, none)
  else .ok (g, cap)

/-- The graph, queues and out-edges of a network. -/
structure Made (A C B : Type*) where
  graph : QGraph A
  queues : List (Option (QSpec C B))
  out : Nat → List Nat

/-- `QueueNetwork(g, q_classes, q_args, adjust_graph)`, queue_network.py lines 332-369. -/
def makeNetwork [EmptyCollection A] [EmptyCollection B] (g : QGraph A) (given dflt : Dict Int C)
    (args : Dict Int (QArgs B)) (cap : Option (Nat → Option Nat)) (adjust : Bool) : Except Err (Made A C B) :=
  match prepare g cap adjust with
  | .error e => .error e
  | .ok (g, cap) =>
    match makeQueues g given dflt args cap with
    | .error e => .error e
    | .ok qs =>
      match g.allOut with
      | .error e => .error e
      | .ok out => .ok ⟨g, qs, out⟩

/-! ## Colours -/

/-- `for k, e in enumerate(g.edges()): g.set_ep(e, 'edge_color', queues[k].colors[...])`, queue_network.py lines
1016-1017; graph_preparation.py lines 138-144. `col k e` is the colour queue `k` has for edge `e` (the key used at construction depends on whether `e` is a
loop). -/
def drawEdges {K : Type*} (g : Adj A) (col : Nat → Nat × Nat → K) : Dict (Nat × Nat) K :=
  g.edges.zipIdx.map fun p => (p.1, col p.2 p.1)

end

end Verif
