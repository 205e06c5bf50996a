import Verif.Dict
import Verif.Queue
import Mathlib.Data.List.Sort

/-!
# Model of the graph layer

`graph/graph_wrapper.py` (`_matrix2dict`, `_dict2dict`, `_adjacency_adjust`, `adjacency2graph`,
`QueueNetworkDiGraph`), `graph2dict` (graph/graph_functions.py). Vertices are natural numbers.

networkx is modelled by its documented behaviour: a DiGraph is the dict of dicts `_adj`; nodes and
neighbours are kept in the order of insertion.
-/

namespace Verif

/-- The attribute dict of an edge: the entry `edge_type` (if there) and all other entries, of some type
`A`; `∅ : A` when there are none. -/
structure EAttr (A : Type*) where
  etype : Option Int
  rest : A
deriving DecidableEq, Repr

/-- A dict of dicts `{u: {v: attributes}}`; also `_adj` of a DiGraph. -/
abbrev Adj (A : Type*) := Dict Nat (Dict Nat (EAttr A))

namespace Adj

variable {A : Type*}

/-- The attributes of edge `(u, v)`, if it is there. -/
def look (g : Adj A) (u v : Nat) : Option (EAttr A) := (Dict.get? g u).bind fun d => Dict.get? d v

/-- The keys of all dicts are distinct. -/
def Ok (g : Adj A) : Prop := Dict.Ok g ∧ ∀ p ∈ g, Dict.Ok p.2

/-- `g.edges()`: by source in the order of the nodes, then in the order of the neighbours. -/
def edges (g : Adj A) : List (Nat × Nat) := g.flatMap fun p => p.2.map fun q => (p.1, q.1)

/-- Add a node if it is not there (networkx). -/
def addNode (g : Adj A) (v : Nat) : Adj A :=
  match Dict.get? g v with
  | some _ => g
  | none => Dict.set g v []

/-- Add edge `(u, v)` with the given attributes (networkx). -/
def addEdge (g : Adj A) (u v : Nat) (x : EAttr A) : Adj A :=
  let g := addNode (addNode g u) v
  match Dict.get? g u with
  | some d => Dict.set g u (Dict.set d v x)
  | none => g

/-- Add the edges from `u` given by a dict. -/
def addNbrs (g : Adj A) (u : Nat) (d : Dict Nat (EAttr A)) : Adj A :=
  d.foldl (fun g q => addEdge g u q.1 q.2) g

/-- `nx.from_dict_of_dicts(d, create_using=nx.DiGraph())`: first the keys become nodes, then the edges are
added one by one. Its inverse `nx.to_dict_of_dicts(g)` is `_adj` itself. -/
def fromDicts (d : Adj A) : Adj A :=
  d.foldl (fun g p => addNbrs g p.1 p.2) (d.map fun p => (p.1, []))

/-- `{v: {} for v in value}`, graph_wrapper.py line 37. -/
def dictOfList [EmptyCollection A] (l : List Nat) : Dict Nat (EAttr A) :=
  l.foldl (fun d v => Dict.set d v ⟨none, ∅⟩) []

/-- An `adjacency` argument: a matrix (its number of rows and which entries are not zero), a dict of dicts, a
dict of lists, something else. SIMPLIFIED: a matrix is square; dicts that mix lists and dicts are left out. -/
inductive AdjArg (A : Type*)
  | matrix (n : Nat) (nz : Nat → Nat → Bool)
  | dicts (d : Adj A)
  | lists (d : Dict Nat (List Nat))
  | other

/-- `_matrix2dict(matrix)`, graph_wrapper.py lines 15-24. -/
def ofMatrix [EmptyCollection A] (n : Nat) (nz : Nat → Nat → Bool) : Adj A :=
  (List.range n).map fun k => (k, ((List.range n).filter (nz k)).map fun j => (j, ⟨none, ∅⟩))

/-- `_dict2dict(adj_dict)`, graph_wrapper.py lines 27-40, and the dispatch of `adjacency2graph`, lines 153-160.
`popitem` raises KeyError on an empty dict. -/
def ofArg [EmptyCollection A] : AdjArg A → Except Err (Adj A)
  | .matrix n nz => .ok (ofMatrix n nz)
  | .dicts d => if d = [] then .error .keyError else .ok d
  | .lists d => if d = [] then .error .keyError else .ok (d.map fun p => (p.1, dictOfList p.2))
  | .other => .error .typeError

/-- An `edge_type` argument: a matrix or a dict of dicts. -/
inductive TypeArg
  | none
  | matrix (n : Nat) (m : Nat → Nat → Int)
  | dicts (d : Dict Nat (Dict Nat Int))

/-- The dict of dicts made from `edge_type`, graph_wrapper.py lines 162-168; zero entries of a matrix
are left out (line 22). -/
def types : TypeArg → Except Err (Dict Nat (Dict Nat Int))
  | .none => .ok []
  | .matrix n m => .ok ((List.range n).map fun k =>
      (k, ((List.range n).filter fun j => m k j != 0).map fun j => (j, m k j)))
  | .dicts d => if d = [] then .error .keyError else .ok d

/-- `adjacency[u][v]['edge_type'] = et`, graph_wrapper.py line 172; `none` = KeyError. -/
def setType (g : Adj A) (u v : Nat) (et : Int) : Option (Adj A) :=
  match Dict.get? g u with
  | none => none
  | some d =>
    match Dict.get? d v with
    | none => none
    | some x => some (Dict.set g u (Dict.set d v { x with etype := some et }))

/-- `for v, et in ty.items(): ...`, graph_wrapper.py lines 171-172. -/
def setTypesFrom (g : Adj A) (u : Nat) : Dict Nat Int → Option (Adj A)
  | [] => some g
  | (v, et) :: ty =>
    match g.setType u v et with
    | none => none
    | some g => g.setTypesFrom u ty

/-- `for u, ty in edge_type.items(): ...`, graph_wrapper.py lines 170-172. -/
def setTypes (g : Adj A) : Dict Nat (Dict Nat Int) → Option (Adj A)
  | [] => some g
  | (u, ty) :: d =>
    match g.setTypesFrom u ty with
    | none => none
    | some g => g.setTypes d

/-- `if properties.get('edge_type') is None: properties['edge_type'] = 1`, graph_wrapper.py lines 48-51. -/
def fillTypes (g : Adj A) : Adj A :=
  g.map fun p => (p.1, p.2.map fun q => (q.1, { q.2 with etype := some (q.2.etype.getD 1) }))

/-- `null_nodes`, graph_wrapper.py lines 55-59. -/
def nullNodes (g : Adj A) : List Nat := (g.filter fun p => p.2.isEmpty).map Prod.fst

/-- `adjust == 2`, graph_wrapper.py lines 61-64. -/
def markNull (g : Adj A) : Adj A :=
  g.map fun p => (p.1, p.2.map fun q =>
    (q.1, if q.1 ∈ nullNodes g then { q.2 with etype := some 0 } else q.2))

/-- `adjust != 2`, graph_wrapper.py lines 66-69. -/
def addLoops [EmptyCollection A] (g : Adj A) : Adj A :=
  g.map fun p => (p.1, if p.2.isEmpty then [(p.1, ⟨some 0, ∅⟩)] else p.2)

/-- `_adjacency_adjust(adjacency, adjust, True)`, graph_wrapper.py lines 43-71. -/
def adjust [EmptyCollection A] (g : Adj A) (two : Bool) : Adj A :=
  if two then markNull (fillTypes g) else addLoops (fillTypes g)

/-- `adjacency2graph(adjacency, edge_type, adjust)`, graph_wrapper.py lines 153-178. -/
def adjacency2graph [EmptyCollection A] (a : AdjArg A) (ty : TypeArg) (two : Bool) : Except Err (Adj A) :=
  match ofArg a with
  | .error e => .error e
  | .ok g =>
    match types ty with
    | .error e => .error e
    | .ok ty =>
      match setTypes g ty with
      | none => .error .keyError
      | some g => .ok (fromDicts (adjust (fromDicts g) two))

/-- `new_edge_property('edge_type')`, graph_wrapper.py lines 306-308: every edge gets the value None. SIMPLIFIED: the
value None and a missing entry are the same (all readers use `get`). -/
def clearTypes (g : Adj A) : Adj A :=
  g.map fun p => (p.1, p.2.map fun q => (q.1, { q.2 with etype := none }))

/-- `graph2dict(g, False)`, graph_functions.py line 88; `graph2dict(g)` (line 86) is `g` itself. -/
def graph2lists (g : Adj A) : Dict Nat (List Nat) := g.map fun p => (p.1, p.2.map Prod.fst)

end Adj

/-- Order of edges as tuples. -/
def edgeLe (a b : Nat × Nat) : Prop := a.1 < b.1 ∨ (a.1 = b.1 ∧ a.2 ≤ b.2)

instance : DecidableRel edgeLe := fun a b => by unfold edgeLe; infer_instance

/-- A `QueueNetworkDiGraph`: `_adj`, `edge_index`, `_nE`. -/
structure QGraph (A : Type*) where
  adj : Adj A
  index : Dict (Nat × Nat) Nat
  nE : Nat

namespace QGraph

variable {A : Type*}

/-- `QueueNetworkDiGraph(data)` for a DiGraph, graph_wrapper.py lines 232-250. -/
def ofAdj (g : Adj A) : QGraph A where
  adj := g
  index := (g.edges.insertionSort edgeLe).zipIdx
  nE := g.edges.length

/-- `add_edge(u, v)`, graph_wrapper.py lines 258-263 (without attributes). -/
def addEdge [EmptyCollection A] (g : QGraph A) (u v : Nat) : QGraph A :=
  let adj := if (g.adj.look u v).isSome then g.adj else g.adj.addEdge u v ⟨none, ∅⟩
  if (Dict.get? g.index (u, v)).isSome then { g with adj := adj }
  else { adj := adj, index := Dict.set g.index (u, v) g.nE, nE := g.nE + 1 }

/-- `is_edge(e)`, graph_wrapper.py lines 255-256. -/
def isEdge (g : QGraph A) (e : Nat × Nat) : Bool := (Dict.get? g.index e).isSome

/-- `set_ep(e, 'edge_type', t)`, graph_wrapper.py lines 274-278; `none` = KeyError. -/
def setEp (g : QGraph A) (e : Nat × Nat) (t : Int) : Option (QGraph A) :=
  match g.adj.setType e.1 e.2 t with
  | none => none
  | some a => some { g with adj := a }

/-- `new_edge_property('edge_type')`, graph_wrapper.py lines 306-310. -/
def newEdgeType (g : QGraph A) : QGraph A := { g with adj := g.adj.clearTypes }

end QGraph

/-! ## Lemmas -/

namespace Adj

variable {A : Type*}

theorem mem_edges {g : Adj A} (h : g.Ok) {u v : Nat} : (u, v) ∈ g.edges ↔ (g.look u v).isSome := by
  unfold edges look
  simp only [List.mem_flatMap, List.mem_map, Prod.mk.injEq]
  constructor
  · rintro ⟨⟨i, d⟩, hp, ⟨j, x⟩, hq, rfl, rfl⟩
    rw [Dict.get?_of_mem h.1 hp]
    simp [Dict.get?_of_mem (h.2 _ hp) hq]
  · intro hs
    cases hd : Dict.get? g u with
    | none => rw [hd] at hs; simp at hs
    | some d =>
      rw [hd] at hs
      simp only [Option.bind_some] at hs
      obtain ⟨x, hx⟩ := Option.isSome_iff_exists.mp hs
      exact ⟨(u, d), Dict.mem_of_get? hd, (v, x), Dict.mem_of_get? hx, rfl, rfl⟩

theorem edges_nodup {g : Adj A} (h : g.Ok) : g.edges.Nodup := by
  obtain ⟨h1, h2⟩ := h
  unfold edges
  induction g with
  | nil => simp
  | cons p g ih =>
    unfold Dict.Ok at h1
    simp only [Dict.keys_cons, List.nodup_cons] at h1
    rw [List.flatMap_cons, List.nodup_append]
    refine ⟨?_, ih h1.2 fun q hq => h2 q (by simp [hq]), ?_⟩
    · have := h2 p (by simp)
      unfold Dict.Ok Dict.keys at this
      have h3 : (p.2.map fun q => (p.1, q.1)) = (p.2.map Prod.fst).map fun j => (p.1, j) := by simp
      rw [h3]
      exact this.map (fun a b hab => by simpa using hab)
    · rintro a ha b hb rfl
      simp only [List.mem_map, List.mem_flatMap] at ha hb
      obtain ⟨q, hq, rfl⟩ := ha
      obtain ⟨p', hp', q', hq', he⟩ := hb
      simp only [Prod.mk.injEq] at he
      exact h1.1 (he.1 ▸ List.mem_map.mpr ⟨p', hp', rfl⟩)

theorem get?_addNode (g : Adj A) (v w : Nat) :
    Dict.get? (addNode g v) w = (Dict.get? g w).or (if w = v then some [] else none) := by
  unfold addNode
  cases hv : Dict.get? g v with
  | some d =>
    by_cases hw : w = v
    · subst hw; simp [hv]
    · simp [hw]
  | none =>
    simp only [Dict.get?_set]
    by_cases hw : w = v
    · subst hw; simp [hv]
    · simp [hw]

theorem get?_addEdge (g : Adj A) (u v : Nat) (x : EAttr A) (w : Nat) :
    Dict.get? (addEdge g u v x) w = if w = u then some (Dict.set ((Dict.get? g u).getD []) v x)
      else (Dict.get? g w).or (if w = v then some [] else none) := by
  have h1 : Dict.get? (addNode (addNode g u) v) u = some ((Dict.get? g u).getD []) := by
    rw [get?_addNode, get?_addNode, if_pos rfl]
    cases Dict.get? g u <;> simp
  unfold addEdge
  simp only [h1, Dict.get?_set]
  by_cases hw : w = u
  · simp [hw]
  · simp only [hw, if_false, get?_addNode]; simp

theorem get?_addNbrs (d : Dict Nat (EAttr A)) : ∀ (g : Adj A) (u : Nat) (d0 : Dict Nat (EAttr A)),
    Dict.get? g u = some d0 → ∀ w, Dict.get? (addNbrs g u d) w =
      if w = u then some (d.foldl (fun d q => Dict.set d q.1 q.2) d0)
      else (Dict.get? g w).or (if w ∈ Dict.keys d then some [] else none) := by
  induction d with
  | nil =>
    intro g u d0 h w
    by_cases hw : w = u
    · subst hw; simp [addNbrs, h]
    · simp [addNbrs, hw]
  | cons q d ih =>
    intro g u d0 h w
    have h1 : Dict.get? (addEdge g u q.1 q.2) u = some (Dict.set d0 q.1 q.2) := by
      rw [get?_addEdge, if_pos rfl, h]; rfl
    have : addNbrs g u (q :: d) = addNbrs (addEdge g u q.1 q.2) u d := rfl
    rw [this, ih _ u _ h1 w]
    by_cases hw : w = u
    · simp [hw]
    · simp only [hw, if_false, get?_addEdge, Dict.keys_cons, List.mem_cons]
      cases Dict.get? g w with
      | some _ => simp
      | none => by_cases hq : w = q.1 <;> simp [hq]

theorem foldl_set_append {V : Type*} (d : Dict Nat V) : ∀ (e : Dict Nat V), Dict.Ok (e ++ d) →
    d.foldl (fun d q => Dict.set d q.1 q.2) e = e ++ d := by
  induction d with
  | nil => intro e _; simp
  | cons q d ih =>
    intro e h
    have hq : ∀ (e : Dict Nat V), q.1 ∉ Dict.keys e → Dict.set e q.1 q.2 = e ++ [q] := by
      intro e
      induction e with
      | nil => intro _; rfl
      | cons p e ih =>
        intro hp
        simp only [Dict.keys_cons, List.mem_cons, not_or] at hp
        obtain ⟨i, y⟩ := p
        simp only [Dict.set]
        rw [if_neg (Ne.symm hp.1), ih hp.2]; rfl
    have hn : q.1 ∉ Dict.keys e := by
      unfold Dict.Ok Dict.keys at h
      rw [List.map_append, List.nodup_append] at h
      intro hm
      exact h.2.2 q.1 hm q.1 (by simp) rfl
    rw [List.foldl_cons, hq e hn, ih _ (by simpa using h)]
    simp

theorem foldl_set {V : Type*} {d : Dict Nat V} (h : Dict.Ok d) :
    d.foldl (fun d q => Dict.set d q.1 q.2) [] = d := by
  simpa using foldl_set_append d [] (by simpa using h)

/-- `w` is the target of an edge. -/
def IsTarget (d : Adj A) (w : Nat) : Prop := ∃ p ∈ d, w ∈ Dict.keys p.2

instance (d : Adj A) (w : Nat) : Decidable (IsTarget d w) := by unfold IsTarget; infer_instance

theorem get?_fold (d : Adj A) : ∀ (g : Adj A), d.Ok → (∀ p ∈ d, Dict.get? g p.1 = some []) → ∀ w,
    Dict.get? (d.foldl (fun g p => addNbrs g p.1 p.2) g) w =
      match Dict.get? d w with
      | some nb => some nb
      | none => (Dict.get? g w).or (if IsTarget d w then some [] else none) := by
  induction d with
  | nil => intro g _ _ w; simp [Dict.get?, IsTarget]
  | cons p d ih =>
    intro g hok hg w
    obtain ⟨i, nb⟩ := p
    have hk : i ∉ Dict.keys d ∧ Dict.Ok d := by
      have := hok.1; unfold Dict.Ok at this ⊢; simpa using this
    have hn := get?_addNbrs nb g i [] (hg (i, nb) (by simp))
    rw [foldl_set (hok.2 (i, nb) (by simp))] at hn
    have hd : Adj.Ok d := ⟨hk.2, fun q hq => hok.2 q (by simp [hq])⟩
    rw [List.foldl_cons, ih _ hd]
    · rw [hn]
      simp only [Dict.get?]
      by_cases hw : i = w
      · subst hw
        rw [Dict.get?_eq_none.mpr hk.1]; simp
      · simp only [hw, Ne.symm hw, if_false]
        cases Dict.get? d w with
        | some _ => rfl
        | none =>
          simp only
          cases Dict.get? g w with
          | some _ => simp
          | none =>
            simp only [Option.none_or]
            have : IsTarget ((i, nb) :: d) w ↔ w ∈ Dict.keys nb ∨ IsTarget d w := by simp [IsTarget]
            by_cases h1 : w ∈ Dict.keys nb <;> by_cases h2 : IsTarget d w <;> simp [h1, h2, this]
    · intro q hq
      have hqi : q.1 ≠ i := by
        rintro rfl
        exact hk.1 (List.mem_map.mpr ⟨q, hq, rfl⟩)
      rw [hn, if_neg hqi, hg q (by simp [hq])]; rfl

/-- The graph made from a dict of dicts. -/
theorem get?_fromDicts {d : Adj A} (h : d.Ok) (w : Nat) :
    Dict.get? (fromDicts d) w =
      match Dict.get? d w with
      | some nb => some nb
      | none => if IsTarget d w then some [] else none := by
  unfold fromDicts
  have hm : ∀ w, Dict.get? (d.map fun p => (p.1, ([] : Dict Nat (EAttr A)))) w = (Dict.get? d w).map fun _ => [] :=
    fun w => Dict.get?_map d (fun _ _ => []) w
  rw [get?_fold d _ h]
  · rw [hm]
    cases Dict.get? d w <;> simp
  · intro p hp
    rw [hm, Dict.get?_of_mem h.1 (show (p.1, p.2) ∈ d from hp)]; rfl

theorem look_fromDicts {d : Adj A} (h : d.Ok) (u v : Nat) : (fromDicts d).look u v = d.look u v := by
  unfold look
  rw [get?_fromDicts h]
  cases Dict.get? d u with
  | some nb => rfl
  | none => simp only; split <;> rfl

theorem ok_iff {g : Adj A} : g.Ok ↔ Dict.Ok g ∧ ∀ u d, Dict.get? g u = some d → Dict.Ok d := by
  constructor
  · rintro ⟨h1, h2⟩; exact ⟨h1, fun u d hd => h2 _ (Dict.mem_of_get? hd)⟩
  · rintro ⟨h1, h2⟩; exact ⟨h1, fun p hp => h2 p.1 p.2 (Dict.get?_of_mem h1 hp)⟩

theorem addNode_dictOk {g : Adj A} (h : Dict.Ok g) (v : Nat) : Dict.Ok (addNode g v) := by
  unfold addNode
  split
  · exact h
  · exact h.set _ _

theorem addEdge_dictOk {g : Adj A} (h : Dict.Ok g) (u v : Nat) (x : EAttr A) : Dict.Ok (addEdge g u v x) := by
  unfold addEdge
  have := addNode_dictOk (addNode_dictOk h u) v
  simp only
  split
  · exact this.set _ _
  · exact this

theorem addNbrs_dictOk (d : Dict Nat (EAttr A)) (u : Nat) : ∀ {g : Adj A}, Dict.Ok g → Dict.Ok (addNbrs g u d) := by
  induction d with
  | nil => intro g h; exact h
  | cons q d ih => intro g h; exact ih (addEdge_dictOk h u q.1 q.2)

theorem fromDicts_ok {d : Adj A} (h : d.Ok) : (fromDicts d).Ok := by
  rw [ok_iff]
  refine ⟨?_, fun u nb hu => ?_⟩
  · have : ∀ (l : Adj A) (g : Adj A), Dict.Ok g → Dict.Ok (l.foldl (fun g p => addNbrs g p.1 p.2) g) := by
      intro l
      induction l with
      | nil => intro g hg; exact hg
      | cons p l ih => intro g hg; exact ih _ (addNbrs_dictOk _ _ hg)
    refine this d _ ?_
    have := Dict.keys_map d (fun _ _ => ([] : Dict Nat (EAttr A)))
    unfold Dict.Ok
    rw [this]; exact h.1
  · rw [get?_fromDicts h] at hu
    cases hd : Dict.get? d u with
    | some nb' =>
      rw [hd] at hu
      simp only [Option.some.injEq] at hu
      subst hu; exact (ok_iff.mp h).2 u _ hd
    | none =>
      rw [hd] at hu
      simp only at hu
      split at hu
      · simp only [Option.some.injEq] at hu; subst hu; exact List.nodup_nil
      · simp at hu

end Adj

end Verif
