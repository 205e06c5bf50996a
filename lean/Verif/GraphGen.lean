import Verif.Graph
import Verif.UnionFind
import Mathlib.Algebra.Order.Field.Basic
import Mathlib.Data.List.Dedup

/-!
# Model of graph/graph_generation.py

`minimal_random_graph`, `set_types_random`, `set_types_rank`, `generate_random_graph`,
`generate_pagerank_graph`. Random numbers, distances between points and the page rank are arguments.

SIMPLIFIED: the vertex property `pos` (and the array `pos`) is not kept; it enters through the distances.
Arguments `g` are `QueueNetworkDiGraph`s (`_test_graph` returns them unchanged).
-/

namespace Verif

variable {A : Type*}

/-! ## minimal_random_graph -/

section Minimal

variable {D : Type*} [LinearOrder D]

/-- The pairs `(k, j)` in the order of the two loops, graph_generation.py lines 214-217. -/
def allPairs (n : Nat) : List (Nat × Nat) :=
  (List.range (n - 1)).flatMap fun k => (List.range' (k + 1) (n - (k + 1))).map fun j => (k, j)

/-- The order of `np.sort(edges, order='distance')`, graph_generation.py line 221: by distance; numpy breaks ties by the
other fields in their order, here `n1` and `n2`. `d k j` is the (squared) distance of the points `k` and `j`. -/
def pairLe (d : Nat → Nat → D) (a b : Nat × Nat) : Prop :=
  d a.1 a.2 < d b.1 b.2 ∨ (d a.1 a.2 = d b.1 b.2 ∧ edgeLe a b)

instance (d : Nat → Nat → D) : DecidableRel (pairLe d) := fun a b => by unfold pairLe; infer_instance

/-- `add_edge(u, v)` of an undirected `nx.Graph`, which keeps each edge in both rows of `_adj`; `to_directed()` has the
same `_adj`. -/
def Adj.addBoth [EmptyCollection A] (g : Adj A) (u v : Nat) : Adj A :=
  (g.addEdge u v ⟨none, ∅⟩).addEdge v u ⟨none, ∅⟩

/-- The loop over the sorted pairs, graph_generation.py lines 226-230. -/
def joinUntil [EmptyCollection A] : List (Nat × Nat) → UF Nat → Adj A → Except Err (Adj A)
  | [], _, g => .ok g
  | (n1, n2) :: es, u, g =>
    match u.union n1 n2 with
    | none => .error .keyError
    | some u =>
      let g := g.addBoth n1 n2
      if u.nClusters = 1 then .ok g else joinUntil es u g

/-- `minimal_random_graph(n)`, graph_generation.py lines 208-235. -/
def minimalGraph [EmptyCollection A] (n : Nat) (d : Nat → Nat → D) : Except Err (QGraph A) :=
  match joinUntil ((allPairs n).insertionSort (pairLe d)) (UF.new (List.range n)) [] with
  | .error e => .error e
  | .ok g => .ok (QGraph.ofAdj g)

end Minimal

/-! ## set_types_random -/

section Random

variable {K : Type*} [Field K] [LinearOrder K]

/-- `p.cumsum()` of numpy. -/
def cumsum (p : List K) : List K := (List.range p.length).map fun i => (p.take (i + 1)).sum

/-- One value of `np.random.choice(types, replace=True, p=p)`: `cdf = p.cumsum(); cdf /= cdf[-1]` and the entry of
`types` at `cdf.searchsorted(u, side='right')`, the number of entries that are at most the uniform draw `u` (numpy). -/
def choiceOne (types : List Int) (p : List K) (u : K) : Option Int :=
  types[((cumsum p).map (· / p.sum)).countP fun c => decide (c ≤ u)]?

/-- The values, if all are there. -/
def collect {α : Type*} : List (Option α) → Option (List α)
  | [] => some []
  | none :: _ => none
  | some x :: l => (collect l).map (x :: ·)

/-- `np.random.choice(types, size=m, replace=True, p=p)` with the uniform draws `rnd 0, ..., rnd (m - 1)`: ValueError if
a probability is negative or they do not sum to one (to the accuracy of numpy, `sumOk`). -/
def npChoice (sumOk : K → Bool) (types : List Int) (p : List K) (m : Nat) (rnd : Nat → K) : Except Err (List Int) :=
  if ∃ x ∈ p, x < 0 then .error .valueError
  else if sumOk p.sum = false then .error .valueError
  else
    match collect ((List.range m).map fun i => choiceOne types p (rnd i)) with
    | none => .error .indexError
    | some l => .ok l

/-- `for e in g.edges(): g.set_ep(e, 'edge_type', eTypes[e])`, graph_generation.py lines 323-324. -/
def setFrom (eTypes : Dict (Nat × Nat) Int) : List (Nat × Nat) → QGraph A → Except Err (QGraph A)
  | [], g => .ok g
  | e :: es, g =>
    match Dict.get? eTypes e with
    | none => .error .keyError
    | some t =>
      match g.setEp e t with
      | none => .error .keyError
      | some g => setFrom eTypes es g

/-- `set_types_random(g, proportions, loop_proportions)`, graph_generation.py lines 285-326. `isOne x` stands for
`np.isclose(x, 1)`; `rnd`, `lrnd` are the draws for edges and for loops. -/
def setTypesRandom (isOne sumOk : K → Bool) (g : QGraph A) (props lprops : Dict Int K) (rnd lrnd : Nat → K) :
    Except Err (QGraph A) :=
  let edges := g.adj.edges.filter fun e => e.1 ≠ e.2
  let loops := g.adj.edges.filter fun e => e.1 = e.2
  if isOne (props.map Prod.snd).sum = false then .error .valueError
  else if isOne (lprops.map Prod.snd).sum = false then .error .valueError
  else
    match npChoice sumOk (Dict.keys props) (props.map Prod.snd) edges.length rnd with
    | .error e => .error e
    | .ok values =>
      let eTypes : Dict (Nat × Nat) Int := (edges.zip values).foldl (fun d q => Dict.set d q.1 q.2) []
      match npChoice sumOk (Dict.keys lprops) (lprops.map Prod.snd) loops.length lrnd with
      | .error e => .error e
      | .ok values =>
        let eTypes := (loops.zip values).foldl (fun d q => Dict.set d q.1 q.2) eTypes
        setFrom eTypes g.newEdgeType.adj.edges g.newEdgeType

/-- The loop over the vertices of `generate_random_graph`, graph_generation.py lines 110-114. `rnd v` is the draw for
vertex `v`. -/
def addRandomLoops [EmptyCollection A] (probLoop : K) (rnd : Nat → K) : List Nat → QGraph A → QGraph A
  | [], g => g
  | v :: vs, g =>
    addRandomLoops probLoop rnd vs
      (if g.isEdge (v, v) = false then if rnd v < probLoop then g.addEdge v v else g else g)

/-- `generate_random_graph(n, prob_loop, proportions, loop_proportions)`, graph_generation.py lines 109-116. -/
def randomGraph {D : Type*} [LinearOrder D] [EmptyCollection A] (isOne sumOk : K → Bool) (n : Nat)
    (d : Nat → Nat → D) (probLoop : K) (prnd : Nat → K) (props lprops : Dict Int K) (rnd lrnd : Nat → K) :
    Except Err (QGraph A) :=
  match minimalGraph (A := A) n d with
  | .error e => .error e
  | .ok g => setTypesRandom isOne sumOk (addRandomLoops probLoop prnd (Dict.keys g.adj) g) props lprops rnd lrnd

/-- `points = np.random.random((num_vertices, 2)) * 10`, graph_generation.py line 211: two draws for each vertex. -/
def pointOf (ω : Nat → K) (v : Nat) : K × K := (ω (2 * v) * 10, ω (2 * v + 1) * 10)

/-- `v[0]**2 + v[1]**2` for `v = points[k] - points[j]`, graph_generation.py lines 216-217. -/
def sqDist (ω : Nat → K) (k j : Nat) : K :=
  ((pointOf ω k).1 - (pointOf ω j).1) ^ 2 + ((pointOf ω k).2 - (pointOf ω j).2) ^ 2

/-- `generate_random_graph(n, prob_loop, proportions, loop_proportions, seed=...)` with all its draws `ω` of numpy's
generator. First come the points (line 211), then one draw for each vertex, because the minimal graph has no loops
(line 113), then those of `set_types_random`. With a `seed` the latter seeds again with it (line 291; `**kwargs` contains
`seed` in lines 109 and 115), so its draws are the first ones once more. -/
def randomGraphFrom [EmptyCollection A] (isOne sumOk : K → Bool) (seeded : Bool) (n : Nat) (probLoop : K)
    (props lprops : Dict Int K) (ω : Nat → K) : Except Err (QGraph A) :=
  match minimalGraph (A := A) n (sqDist ω) with
  | .error e => .error e
  | .ok g =>
    let loops := addRandomLoops probLoop (fun v => ω (2 * n + (Dict.keys g.adj).idxOf v)) (Dict.keys g.adj) g
    let start := if seeded then 0 else 2 * n + n
    setTypesRandom isOne sumOk loops props lprops (fun i => ω (start + i))
      (fun i => ω (start + ((loops.adj.edges.filter fun e => e.1 ≠ e.2).length + i)))

end Random

/-! ## set_types_rank -/

section Rank

variable {K D : Type*} [LinearOrder K] [LinearOrder D] [OrderTop D]

/-- `tmp[-nDests]` with `tmp = np.sort(rank)`, graph_generation.py lines 376-378; `tmp[-0]` is `tmp[0]`, and `none` is an
IndexError. -/
def rankBound (rank : List K) (nDests : Nat) : Option K :=
  let tmp := rank.insertionSort (· ≤ ·)
  if nDests = 0 then tmp[0]?
  else if nDests ≤ tmp.length then tmp[tmp.length - nDests]?
  else none

/-- `np.where(rank >= tmp[-nDests])[0]`, graph_generation.py line 378. -/
def rankDests (rank : List K) (bound : K) : List Nat :=
  (List.range rank.length).filter fun v => match rank[v]? with | some x => decide (bound ≤ x) | none => false

/-- The arrays `min_g_dist`, `ind_g_dist`, graph_generation.py lines 386-387. -/
structure Near (D : Type*) where
  best : Nat → D
  ind : Nat → Nat

/-- The loop over the vertices, graph_generation.py lines 393-397. `dist v k` is the distance of vertex `v` to
`g_pos[k]`. SIMPLIFIED: no distance is nan. -/
def nearest (dests : List Nat) (dist : Nat → Nat → D) : List Nat → Near D → Near D
  | [], s => s
  | v :: vs, s =>
    if v ∈ dests then nearest dests dist vs s
    else
      let best := fun k => min (dist v k) (s.best k)
      nearest dests dist vs ⟨best, fun k => if best k = dist v k then v else s.ind k⟩

/-- `fcqs`, graph_generation.py lines 399-400. -/
def fcqs (nFCQ : Nat) (s : Near D) : List Nat :=
  let ind := ((List.range nFCQ).map s.ind).dedup.insertionSort (· ≤ ·)
  ind.take (min nFCQ ind.length)

/-- The loop that adds loops, graph_generation.py lines 404-412, with the vertex property `loop_type`. -/
def addTypeLoops [EmptyCollection A] (dests fc : List Nat) : List Nat → QGraph A × Dict Nat Int → QGraph A × Dict Nat Int
  | [], s => s
  | v :: vs, s =>
    addTypeLoops dests fc vs
      (if v ∈ dests then (if s.1.isEdge (v, v) = false then s.1.addEdge v v else s.1, Dict.set s.2 v 3)
       else if v ∈ fc then (if s.1.isEdge (v, v) = false then s.1.addEdge v v else s.1, Dict.set s.2 v 2)
       else s)

/-- `for e in g.edges(): g.set_ep(e, 'edge_type', t)`, graph_generation.py lines 415-416. -/
def setEach (t : Int) : List (Nat × Nat) → QGraph A → Except Err (QGraph A)
  | [], g => .ok g
  | e :: es, g =>
    match g.setEp e t with
    | none => .error .keyError
    | some g => setEach t es g

/-- The loop over the vertices, graph_generation.py lines 418-424. -/
def setLoopTypes (lt : Dict Nat Int) : List Nat → QGraph A → Except Err (QGraph A)
  | [], g => .ok g
  | v :: vs, g =>
    if Dict.get? lt v = some 2 ∨ Dict.get? lt v = some 3 then
      match g.setEp (v, v) (if Dict.get? lt v = some 2 then 2 else 3) with
      | none => .error .keyError
      | some g => setLoopTypes lt vs g
    else setLoopTypes lt vs g

/-- `set_types_rank(g, rank, pType2, pType3)`, graph_generation.py lines 371-426; `nDests = int(ceil(V * pType2))` and
`nFCQ = int(pType3 * V)`. SIMPLIFIED: neither is negative; every vertex has a position. The KeyError is that of
`g.vp(v, 'pos')` for an index of `rank` that is not a vertex. -/
def setTypesRank [EmptyCollection A] (g : QGraph A) (rank : List K) (nDests nFCQ : Nat) (dist : Nat → Nat → D) :
    Except Err (QGraph A) :=
  match rankBound rank nDests with
  | none => .error .indexError
  | some bound =>
    let dests := rankDests rank bound
    if ∃ v ∈ dests, v ∉ Dict.keys g.adj then .error .keyError
    else
      let fc := fcqs nFCQ (nearest dests dist (Dict.keys g.adj) ⟨fun _ => ⊤, fun _ => 1⟩)
      let s := addTypeLoops dests fc (Dict.keys g.adj) (g, [])
      match setEach 1 s.1.newEdgeType.adj.edges s.1.newEdgeType with
      | .error e => .error e
      | .ok g => setLoopTypes s.2 (Dict.keys g.adj) g

/-- `generate_pagerank_graph(n, pType2, pType3)`, graph_generation.py lines 153-178; `pr v` is the page rank of vertex
`v`, and `r` has `n` entries. -/
def pagerankGraph {D' : Type*} [LinearOrder D'] [EmptyCollection A] [Zero K] (n : Nat) (d : Nat → Nat → D') (pr : Nat → K)
    (nDests nFCQ : Nat) (dist : Nat → Nat → D) : Except Err (QGraph A) :=
  match minimalGraph (A := A) n d with
  | .error e => .error e
  | .ok g =>
    setTypesRank g ((List.range n).map fun v => if v ∈ Dict.keys g.adj then pr v else 0) nDests nFCQ dist

end Rank

end Verif
