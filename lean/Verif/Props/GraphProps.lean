import Verif.GraphProps
import Verif.Props.Graph
import Mathlib.Data.List.Dedup

/-!
# C129: properties of vertices and edges

A property read with `vp` or `ep` is the value written last, whatever was called in between; the lists of properties contain
exactly what was written; calls that raise have often written before; the arrays of colours agree with the properties as long
as properties of vertices are not used for edges or the other way round; a frozen graph keeps its vertices and edges.
-/

namespace Verif
namespace PGraph

variable {X : Type*} [PyConsts X]

/-- The value a call gives to property `name` of vertex `v`, if it concerns this property. -/
def writesV : Call X → Nat → String → Option X
  | .setVp w n x, v, name => if w = v ∧ n = name then some x else none
  | .newVertexProperty n, _, name => if n = name then some PyConsts.none else none
  | .setPos pos, v, name => if name = "pos" then Dict.get? pos v else none
  | .setEp .., _, _ | .newEdgeProperty _, _, _ | .addEdge .., _, _ | .freeze, _, _ => none

/-- The value a call gives to property `name` of edge `e`; `fr` says whether the graph is frozen. -/
def writesE (fr : Bool) : Call X → Nat × Nat → String → Option X
  | .setEp e' n x, e, name => if e' = e ∧ n = name then some x else none
  | .newEdgeProperty n, _, name => if n = name then some PyConsts.none else none
  | .addEdge u v attrs, e, name => if fr = false ∧ (u, v) = e then Dict.get? attrs name else none
  | .setVp .., _, _ | .newVertexProperty _, _, _ | .setPos _, _, _ | .freeze, _, _ => none

/-- Is the call `freeze()`? -/
def Call.isFreeze : Call X → Bool
  | .freeze => true
  | _ => false

/-- The value given last to property `name` of vertex `v`. -/
def lastV : List (Call X) → Nat → String → Option X
  | [], _, _ => none
  | c :: cs, v, name => (lastV cs v name).or (writesV c v name)

/-- The value given last to property `name` of edge `e` by calls on a graph that is frozen at first or not. -/
def lastE : Bool → List (Call X) → Nat × Nat → String → Option X
  | _, [], _, _ => none
  | fr, c :: cs, e, name => (lastE (fr || c.isFreeze) cs e name).or (writesE fr c e name)

/-- The dicts passed have distinct keys (they are dicts). -/
def Call.Ok : Call X → Prop
  | .setPos pos => Dict.Ok pos
  | .addEdge _ _ attrs => Dict.Ok attrs
  | _ => True

/-! ## Lemmas -/

omit [PyConsts X] in
theorem writeAttr_keeps (has : String → Bool) (g : PGraph X) (name : String) (i : Nat) (x : X) :
    (writeAttr has g name i x).1.nodes = g.nodes ∧ (writeAttr has g name i x).1.edges = g.edges ∧
    (writeAttr has g name i x).1.index = g.index ∧ (writeAttr has g name i x).1.nE = g.nE ∧
    (writeAttr has g name i x).1.frozen = g.frozen := by
  unfold writeAttr
  split
  · rename_i a _
    split
    · simp
    · split
      · cases a <;> simp [setArr]
      · simp
  · split <;> simp

omit [PyConsts X] in
theorem setVp_nodes (has : String → Bool) (g : PGraph X) (v : Nat) (name : String) (x : X) (w : Nat) :
    Dict.get? (g.setVp has v name x).1.nodes w =
      if w = v then (Dict.get? g.nodes w).map (fun d => Dict.set d name x) else Dict.get? g.nodes w := by
  unfold setVp
  split
  · rename_i h
    split
    · rename_i hw; subst hw; simp [h]
    · rfl
  · rename_i d h
    rw [(writeAttr_keeps _ _ _ _ _).1]
    simp only [Dict.get?_set]
    split
    · rename_i hw; subst hw; simp [h]
    · rfl

omit [PyConsts X] in
theorem setVp_keeps (has : String → Bool) (g : PGraph X) (v : Nat) (name : String) (x : X) :
    (g.setVp has v name x).1.edges = g.edges ∧ (g.setVp has v name x).1.index = g.index ∧
    (g.setVp has v name x).1.nE = g.nE ∧ (g.setVp has v name x).1.frozen = g.frozen := by
  unfold setVp
  split
  · simp
  · exact (writeAttr_keeps _ _ _ _ _).2

omit [PyConsts X] in
theorem setEp_keeps (has : String → Bool) (g : PGraph X) (e : Nat × Nat) (name : String) (x : X) :
    (g.setEp has e name x).1.nodes = g.nodes ∧ (g.setEp has e name x).1.index = g.index ∧
    (g.setEp has e name x).1.nE = g.nE ∧ (g.setEp has e name x).1.frozen = g.frozen := by
  unfold setEp
  split
  · simp
  · dsimp only
    split
    · split
      · simp
      · have := writeAttr_keeps has { g with edges := Dict.set g.edges e (Dict.set (by assumption) name x) } name (by assumption) x
        exact ⟨this.1, this.2.2.1, this.2.2.2.1, this.2.2.2.2⟩
    · simp

omit [PyConsts X] in
theorem setEp_edges (has : String → Bool) (g : PGraph X) (e : Nat × Nat) (name : String) (x : X) (f : Nat × Nat) :
    Dict.get? (g.setEp has e name x).1.edges f =
      if f = e then (Dict.get? g.edges f).map (fun d => Dict.set d name x) else Dict.get? g.edges f := by
  unfold setEp
  split
  · rename_i h
    split
    · rename_i hw; subst hw; simp [h]
    · rfl
  · rename_i d h
    have key : Dict.get? (Dict.set g.edges e (Dict.set d name x)) f =
        if f = e then (Dict.get? g.edges f).map (fun d => Dict.set d name x) else Dict.get? g.edges f := by
      rw [Dict.get?_set]
      split
      · rename_i hw; subst hw; simp [h]
      · rfl
    dsimp only
    split
    · split
      · exact key
      · rw [(writeAttr_keeps _ _ _ _ _).2.1]; exact key
    · exact key

omit [PyConsts X] in
theorem setAttr_get? (name : String) (nodes : Dict Nat (Dict String X)) (q : Nat × X) (v : Nat) :
    Dict.get? (setAttr name nodes q) v =
      if v = q.1 then (Dict.get? nodes v).map (fun d => Dict.set d name q.2) else Dict.get? nodes v := by
  unfold setAttr
  split
  · rename_i h
    split
    · rename_i hv; subst hv; simp [h]
    · rfl
  · rename_i d h
    rw [Dict.get?_set]
    split
    · rename_i hv; subst hv; simp [h]
    · rfl

omit [PyConsts X] in
theorem setAttrs_get? (name : String) (v : Nat) : ∀ (pos : Dict Nat X) (nodes : Dict Nat (Dict String X)), Dict.Ok pos →
    Dict.get? (pos.foldl (setAttr name) nodes) v = (Dict.get? nodes v).map fun d =>
      match Dict.get? pos v with
      | some x => Dict.set d name x
      | none => d
  | [], nodes, _ => by simp [Dict.get?]
  | (w, x) :: pos, nodes, h => by
    unfold Dict.Ok at h
    simp only [Dict.keys_cons, List.nodup_cons] at h
    rw [List.foldl_cons, setAttrs_get? name v pos _ h.2, setAttr_get?]
    simp only [Dict.get?]
    by_cases hv : v = w
    · subst hv
      have : Dict.get? pos v = none := Dict.get?_eq_none.mpr h.1
      simp [this, Function.comp_def]
    · simp [hv, Ne.symm hv]

omit [PyConsts X] in
theorem setAttr_keys (name : String) (nodes : Dict Nat (Dict String X)) (q : Nat × X) :
    Dict.keys (setAttr name nodes q) = Dict.keys nodes := by
  unfold setAttr
  split
  · rfl
  · rename_i d h
    rw [Dict.keys_set, if_pos (Dict.get?_isSome.mp (by simp [h]))]

omit [PyConsts X] in
theorem setAttrs_keys (name : String) : ∀ (pos : Dict Nat X) (nodes : Dict Nat (Dict String X)),
    Dict.keys (pos.foldl (setAttr name) nodes) = Dict.keys nodes
  | [], _ => rfl
  | q :: pos, nodes => by rw [List.foldl_cons, setAttrs_keys name pos, setAttr_keys]

omit [PyConsts X] in
theorem setPos_keeps (g : PGraph X) (pos : Dict Nat X) :
    (g.setPos pos).1.nodes = pos.foldl (setAttr "pos") g.nodes ∧ (g.setPos pos).1.edges = g.edges ∧
    (g.setPos pos).1.index = g.index ∧ (g.setPos pos).1.nE = g.nE ∧ (g.setPos pos).1.frozen = g.frozen := by
  unfold setPos
  dsimp only
  split <;> simp

theorem newV_keeps (g : PGraph X) (name : String) :
    (g.newVertexProperty name).nodes = g.nodes.map (fun p => (p.1, Dict.set p.2 name PyConsts.none)) ∧
    (g.newVertexProperty name).edges = g.edges ∧ (g.newVertexProperty name).index = g.index ∧
    (g.newVertexProperty name).nE = g.nE ∧ (g.newVertexProperty name).frozen = g.frozen := by
  unfold newVertexProperty
  dsimp only
  split <;> split <;> simp

theorem newE_keeps (g : PGraph X) (name : String) :
    (g.newEdgeProperty name).edges = g.edges.map (fun p => (p.1, Dict.set p.2 name PyConsts.none)) ∧
    (g.newEdgeProperty name).nodes = g.nodes ∧ (g.newEdgeProperty name).index = g.index ∧
    (g.newEdgeProperty name).nE = g.nE ∧ (g.newEdgeProperty name).frozen = g.frozen := by
  unfold newEdgeProperty
  dsimp only
  split <;> simp

omit [PyConsts X] in
theorem addNode_get? (nodes : Dict Nat (Dict String X)) (v w : Nat) :
    Dict.get? (addNode nodes v) w = if w = v then some ((Dict.get? nodes v).getD []) else Dict.get? nodes w := by
  unfold addNode
  split
  · rename_i d h
    split
    · rename_i hw; subst hw; simp [h]
    · rfl
  · rename_i h
    rw [Dict.get?_set]
    split
    · rename_i hw; subst hw; simp [h]
    · rfl

omit [PyConsts X] in
theorem addEdge_keeps (g : PGraph X) (u v : Nat) (attrs : Dict String X) :
    (g.addEdge u v attrs).1.frozen = g.frozen ∧ (g.addEdge u v attrs).1.pos = g.pos ∧
    (g.addEdge u v attrs).1.edgeColor = g.edgeColor ∧ (g.addEdge u v attrs).1.vertexColor = g.vertexColor ∧
    (g.addEdge u v attrs).1.vertexFill = g.vertexFill := by
  unfold addEdge
  split
  · simp
  · dsimp only
    split <;> simp

omit [PyConsts X] in
theorem addEdge_nodes (g : PGraph X) (u v : Nat) (attrs : Dict String X) (w : Nat) :
    Dict.get? (g.addEdge u v attrs).1.nodes w =
      if g.frozen = false ∧ (w = u ∨ w = v) then some ((Dict.get? g.nodes w).getD []) else Dict.get? g.nodes w := by
  unfold addEdge
  by_cases hf : g.frozen
  · simp [hf]
  · have key : Dict.get? (addNode (addNode g.nodes u) v) w =
        if w = u ∨ w = v then some ((Dict.get? g.nodes w).getD []) else Dict.get? g.nodes w := by
      rw [addNode_get?, addNode_get?, addNode_get?]
      by_cases h1 : w = v
      · subst h1
        by_cases h2 : w = u
        · subst h2; simp
        · simp [h2]
      · by_cases h2 : w = u
        · subst h2; simp [h1]
        · simp [h1, h2]
    have hf' : g.frozen = false := by simpa using hf
    rw [if_neg hf]
    dsimp only
    split <;> simpa [hf'] using key

omit [PyConsts X] in
theorem addEdge_edges (g : PGraph X) (u v : Nat) (attrs : Dict String X) (f : Nat × Nat) :
    Dict.get? (g.addEdge u v attrs).1.edges f =
      if g.frozen = false ∧ (u, v) = f then some (Dict.update ((Dict.get? g.edges f).getD []) attrs)
      else Dict.get? g.edges f := by
  unfold addEdge
  by_cases hf : g.frozen
  · simp [hf]
  · have key : Dict.get? (Dict.set g.edges (u, v) (Dict.update ((Dict.get? g.edges (u, v)).getD []) attrs)) f =
        if (u, v) = f then some (Dict.update ((Dict.get? g.edges f).getD []) attrs) else Dict.get? g.edges f := by
      rw [Dict.get?_set]
      by_cases h : (u, v) = f
      · subst h; simp
      · rw [if_neg (Ne.symm h), if_neg h]
    have hf' : g.frozen = false := by simpa using hf
    rw [if_neg hf]
    dsimp only
    split <;> simpa [hf'] using key

omit [PyConsts X] in
theorem update_get? (name : String) : ∀ (a d : Dict String X), Dict.Ok a →
    Dict.get? (Dict.update d a) name = (Dict.get? a name).or (Dict.get? d name)
  | [], d, _ => by simp [Dict.update, Dict.get?]
  | (n, x) :: a, d, h => by
    unfold Dict.Ok at h
    simp only [Dict.keys_cons, List.nodup_cons] at h
    have := update_get? name a (Dict.set d n x) h.2
    unfold Dict.update at this ⊢
    rw [List.foldl_cons, this, Dict.get?_set]
    simp only [Dict.get?]
    by_cases hn : name = n
    · subst hn
      have h0 : Dict.get? a name = none := Dict.get?_eq_none.mpr h.1
      simp [h0]
    · simp [hn, Ne.symm hn]

/-- Lookup of a property of a vertex after one call. -/
theorem call_nodes (has : String → Bool) (g : PGraph X) (c : Call X) (hc : c.Ok) (v : Nat) {d : Dict String X}
    (hd : Dict.get? g.nodes v = some d) :
    ∃ d', Dict.get? (g.call has c).1.nodes v = some d' ∧
      ∀ name, Dict.get? d' name = (writesV c v name).or (Dict.get? d name) := by
  cases c with
  | setVp w n x =>
    simp only [call, writesV]
    rw [setVp_nodes]
    by_cases h : v = w
    · subst h
      refine ⟨Dict.set d n x, by simp [hd], fun name => ?_⟩
      rw [Dict.get?_set]
      by_cases hn : name = n
      · subst hn; simp
      · simp [hn, Ne.symm hn]
    · exact ⟨d, by simp [h, hd], fun name => by simp [Ne.symm h]⟩
  | setEp e n x =>
    simp only [call, writesV]
    rw [(setEp_keeps _ _ _ _ _).1]
    exact ⟨d, hd, fun name => by simp⟩
  | newVertexProperty n =>
    simp only [call, writesV]
    rw [(newV_keeps _ _).1]
    have := Dict.get?_map g.nodes (fun _ d => Dict.set d n (PyConsts.none : X)) v
    refine ⟨Dict.set d n PyConsts.none, by rw [this, hd]; rfl, fun name => ?_⟩
    rw [Dict.get?_set]
    by_cases hn : name = n
    · subst hn; simp
    · simp [hn, Ne.symm hn]
  | newEdgeProperty n =>
    simp only [call, writesV]
    rw [(newE_keeps _ _).2.1]
    exact ⟨d, hd, fun name => by simp⟩
  | setPos pos =>
    simp only [call, writesV]
    rw [(setPos_keeps _ _).1, setAttrs_get? _ _ _ _ hc, hd]
    refine ⟨_, rfl, fun name => ?_⟩
    cases h : Dict.get? pos v with
    | none => simp
    | some x =>
      simp only [Dict.get?_set]
      by_cases hn : name = "pos" <;> simp [hn]
  | addEdge u w attrs =>
    simp only [call, writesV]
    rw [addEdge_nodes, hd]
    exact ⟨d, by simp, fun name => by simp⟩
  | freeze => exact ⟨d, hd, fun name => by simp [writesV]⟩

theorem call_frozen (has : String → Bool) (g : PGraph X) (c : Call X) :
    (g.call has c).1.frozen = (g.frozen || c.isFreeze) := by
  cases c with
  | setVp w n x => simp [call, Call.isFreeze, (setVp_keeps has g w n x).2.2.2]
  | setEp e n x => simp [call, Call.isFreeze, (setEp_keeps has g e n x).2.2.2]
  | newVertexProperty n => simp [call, Call.isFreeze, (newV_keeps g n).2.2.2.2]
  | newEdgeProperty n => simp [call, Call.isFreeze, (newE_keeps g n).2.2.2.2]
  | setPos pos => simp [call, Call.isFreeze, (setPos_keeps g pos).2.2.2.2]
  | addEdge u w attrs => simp [call, Call.isFreeze, (addEdge_keeps g u w attrs).1]
  | freeze => simp [call, Call.isFreeze, freeze]

/-- Lookup of a property of an edge after one call. -/
theorem call_edges (has : String → Bool) (g : PGraph X) (c : Call X) (hc : c.Ok) (e : Nat × Nat) {d : Dict String X}
    (hd : Dict.get? g.edges e = some d) :
    ∃ d', Dict.get? (g.call has c).1.edges e = some d' ∧
      ∀ name, Dict.get? d' name = (writesE g.frozen c e name).or (Dict.get? d name) := by
  cases c with
  | setVp w n x =>
    simp only [call, writesE]
    rw [(setVp_keeps _ _ _ _ _).1]
    exact ⟨d, hd, fun name => by simp⟩
  | setEp f n x =>
    simp only [call, writesE]
    rw [setEp_edges]
    by_cases h : e = f
    · subst h
      refine ⟨Dict.set d n x, by simp [hd], fun name => ?_⟩
      rw [Dict.get?_set]
      by_cases hn : name = n
      · subst hn; simp
      · simp [hn, Ne.symm hn]
    · exact ⟨d, by simp [h, hd], fun name => by simp [Ne.symm h]⟩
  | newVertexProperty n =>
    simp only [call, writesE]
    rw [(newV_keeps _ _).2.1]
    exact ⟨d, hd, fun name => by simp⟩
  | newEdgeProperty n =>
    simp only [call, writesE]
    rw [(newE_keeps _ _).1]
    have := Dict.get?_map g.edges (fun _ d => Dict.set d n (PyConsts.none : X)) e
    refine ⟨Dict.set d n PyConsts.none, by rw [this, hd]; rfl, fun name => ?_⟩
    rw [Dict.get?_set]
    by_cases hn : name = n
    · subst hn; simp
    · simp [hn, Ne.symm hn]
  | setPos pos =>
    simp only [call, writesE]
    rw [(setPos_keeps _ _).2.1]
    exact ⟨d, hd, fun name => by simp⟩
  | addEdge u w attrs =>
    simp only [call, writesE]
    rw [addEdge_edges, hd]
    by_cases h : g.frozen = false ∧ (u, w) = e
    · rw [if_pos h]
      refine ⟨_, rfl, fun name => ?_⟩
      rw [if_pos h, Option.getD_some, update_get? _ _ _ hc]
    · rw [if_neg h]
      exact ⟨d, rfl, fun name => by rw [if_neg h]; simp⟩
  | freeze => exact ⟨d, hd, fun name => by simp [writesE]⟩

theorem calls_cons (has : String → Bool) (g : PGraph X) (c : Call X) (cs : List (Call X)) :
    g.calls has (c :: cs) = (g.call has c).1.calls has cs := rfl

theorem calls_nodes (has : String → Bool) (v : Nat) : ∀ (cs : List (Call X)) (g : PGraph X), (∀ c ∈ cs, c.Ok) →
    ∀ {d : Dict String X}, Dict.get? g.nodes v = some d →
    ∃ d', Dict.get? (g.calls has cs).nodes v = some d' ∧
      ∀ name, Dict.get? d' name = (lastV cs v name).or (Dict.get? d name)
  | [], g, _, d, hd => ⟨d, hd, fun name => by simp [lastV]⟩
  | c :: cs, g, hc, d, hd => by
    obtain ⟨d1, h1, h1'⟩ := call_nodes has g c (hc c (by simp)) v hd
    obtain ⟨d2, h2, h2'⟩ := calls_nodes has v cs (g.call has c).1 (fun c h => hc c (by simp [h])) h1
    refine ⟨d2, h2, fun name => ?_⟩
    rw [h2', h1', lastV, Option.or_assoc]

theorem calls_edges (has : String → Bool) (e : Nat × Nat) : ∀ (cs : List (Call X)) (g : PGraph X), (∀ c ∈ cs, c.Ok) →
    ∀ {d : Dict String X}, Dict.get? g.edges e = some d →
    ∃ d', Dict.get? (g.calls has cs).edges e = some d' ∧
      ∀ name, Dict.get? d' name = (lastE g.frozen cs e name).or (Dict.get? d name)
  | [], g, _, d, hd => ⟨d, hd, fun name => by simp [lastE]⟩
  | c :: cs, g, hc, d, hd => by
    obtain ⟨d1, h1, h1'⟩ := call_edges has g c (hc c (by simp)) e hd
    obtain ⟨d2, h2, h2'⟩ := calls_edges has e cs (g.call has c).1 (fun c h => hc c (by simp [h])) h1
    refine ⟨d2, h2, fun name => ?_⟩
    rw [h2', h1', lastE, Option.or_assoc, call_frozen]

/-! ## Reading what was written -/

/-- `vp(v, name)` is the value written last by any of the methods, or the value before the calls. Calls for other vertices, other
names and edges make no difference, nor do calls that raise for them. -/
theorem C129_vp (has : String → Bool) (g : PGraph X) (cs : List (Call X)) (hc : ∀ c ∈ cs, c.Ok) (v : Nat) (name : String)
    {x : X} (hx : g.vp v name = .ok x) :
    (g.calls has cs).vp v name = .ok ((lastV cs v name).getD x) := by
  unfold vp at hx ⊢
  cases hd : Dict.get? g.nodes v with
  | none => simp [hd] at hx
  | some d =>
    obtain ⟨d', h1, h2⟩ := calls_nodes has v cs g hc hd
    rw [hd] at hx
    simp only [Except.ok.injEq] at hx
    rw [h1]
    simp only [h2]
    cases lastV cs v name <;> simp [hx]

/-- `ep(e, name)` is the value written last, or the value before the calls. -/
theorem C129_ep (has : String → Bool) (g : PGraph X) (cs : List (Call X)) (hc : ∀ c ∈ cs, c.Ok) (e : Nat × Nat)
    (name : String) {x : X} (hx : g.ep e name = .ok x) :
    (g.calls has cs).ep e name = .ok ((lastE g.frozen cs e name).getD x) := by
  unfold ep at hx ⊢
  cases hd : Dict.get? g.edges e with
  | none => simp [hd] at hx
  | some d =>
    obtain ⟨d', h1, h2⟩ := calls_edges has e cs g hc hd
    rw [hd] at hx
    simp only [Except.ok.injEq] at hx
    rw [h1]
    simp only [h2]
    cases lastE g.frozen cs e name <;> simp [hx]

/-- A vertex that comes with a new edge has no properties. -/
theorem C129_new_vertex (g : PGraph X) (hf : g.frozen = false) (u w : Nat) (attrs : Dict String X) {v : Nat} (hv : v = u ∨ v = w)
    {e : GErr} (name : String) (h : g.vp v name = .error e) :
    (g.addEdge u w attrs).1.vp v name = .ok PyConsts.none := by
  unfold vp at h ⊢
  rw [addEdge_nodes]
  cases hd : Dict.get? g.nodes v with
  | some d => simp [hd] at h
  | none => simp [hf, hv, Dict.get?]

/-- A new edge has the properties passed to `add_edge` and no others. -/
theorem C129_new_edge (g : PGraph X) (hf : g.frozen = false) (u w : Nat) (attrs : Dict String X) (ha : Dict.Ok attrs)
    {e : GErr} (name : String) (h : g.ep (u, w) name = .error e) :
    (g.addEdge u w attrs).1.ep (u, w) name = .ok ((Dict.get? attrs name).getD PyConsts.none) := by
  unfold ep at h ⊢
  rw [addEdge_edges]
  cases hd : Dict.get? g.edges (u, w) with
  | some d => simp [hd] at h
  | none => simp [hf, update_get? _ _ _ ha, Dict.get?]

/-! ## Which vertices, edges and properties there are -/

omit [PyConsts X] in
theorem addNode_ok {nodes : Dict Nat (Dict String X)} (h : Dict.Ok nodes) (v : Nat) : Dict.Ok (addNode nodes v) := by
  unfold addNode
  split
  · exact h
  · exact h.set _ _

theorem call_nodes_ok (has : String → Bool) {g : PGraph X} (c : Call X) (h : Dict.Ok g.nodes) :
    Dict.Ok (g.call has c).1.nodes := by
  cases c with
  | setVp w n x =>
    simp only [call, setVp]
    split
    · exact h
    · rw [(writeAttr_keeps _ _ _ _ _).1]; exact h.set _ _
  | setEp e n x => simp only [call]; rw [(setEp_keeps _ _ _ _ _).1]; exact h
  | newVertexProperty n =>
    simp only [call]
    rw [(newV_keeps _ _).1]
    unfold Dict.Ok
    rw [Dict.keys_map g.nodes (fun _ d => Dict.set d n (PyConsts.none : X))]
    exact h
  | newEdgeProperty n => simp only [call]; rw [(newE_keeps _ _).2.1]; exact h
  | setPos pos =>
    simp only [call]
    rw [(setPos_keeps _ _).1]
    unfold Dict.Ok
    rw [setAttrs_keys]
    exact h
  | addEdge u w attrs =>
    simp only [call, addEdge]
    split
    · exact h
    · split <;> exact addNode_ok (addNode_ok h _) _
  | freeze => exact h

/-- A vertex that was not there before a call is there afterwards only without properties. -/
theorem call_nodes_none (has : String → Bool) (g : PGraph X) (c : Call X) (v : Nat) (hd : Dict.get? g.nodes v = none) :
    Dict.get? (g.call has c).1.nodes v = none ∨ Dict.get? (g.call has c).1.nodes v = some [] := by
  cases c with
  | setVp w n x => simp only [call]; rw [setVp_nodes, hd]; simp
  | setEp e n x => simp only [call]; rw [(setEp_keeps _ _ _ _ _).1, hd]; simp
  | newVertexProperty n =>
    simp only [call]
    rw [(newV_keeps _ _).1, Dict.get?_map g.nodes (fun _ d => Dict.set d n (PyConsts.none : X)), hd]; simp
  | newEdgeProperty n => simp only [call]; rw [(newE_keeps _ _).2.1, hd]; simp
  | setPos pos =>
    have : v ∉ Dict.keys (pos.foldl (setAttr "pos") g.nodes) := by
      rw [setAttrs_keys]; exact Dict.get?_eq_none.mp hd
    simp only [call]
    rw [(setPos_keeps _ _).1, Dict.get?_eq_none.mpr this]; simp
  | addEdge u w attrs =>
    simp only [call]
    rw [addEdge_nodes, hd]
    split <;> simp
  | freeze => exact Or.inl hd

omit [PyConsts X] in
theorem mem_vertexProperties {g : PGraph X} (h : Dict.Ok g.nodes) {name : String} :
    name ∈ g.vertexProperties ↔ ∃ v d, Dict.get? g.nodes v = some d ∧ (Dict.get? d name).isSome := by
  unfold vertexProperties
  rw [List.mem_dedup, List.mem_flatMap]
  constructor
  · rintro ⟨⟨v, d⟩, hp, hn⟩
    exact ⟨v, d, Dict.get?_of_mem h hp, Dict.get?_isSome.mpr hn⟩
  · rintro ⟨v, d, hp, hn⟩
    exact ⟨(v, d), Dict.mem_of_get? hp, Dict.get?_isSome.mp hn⟩

omit [PyConsts X] in
theorem mem_edgeProperties {g : PGraph X} (h : Dict.Ok g.edges) {name : String} :
    name ∈ g.edgeProperties ↔ ∃ e d, Dict.get? g.edges e = some d ∧ (Dict.get? d name).isSome := by
  unfold edgeProperties
  rw [List.mem_dedup, List.mem_flatMap]
  constructor
  · rintro ⟨⟨v, d⟩, hp, hn⟩
    exact ⟨v, d, Dict.get?_of_mem h hp, Dict.get?_isSome.mpr hn⟩
  · rintro ⟨v, d, hp, hn⟩
    exact ⟨(v, d), Dict.mem_of_get? hp, Dict.get?_isSome.mp hn⟩

theorem vp_isOk {g : PGraph X} {v : Nat} {name : String} :
    (∃ x, g.vp v name = .ok x) ↔ ∃ d, Dict.get? g.nodes v = some d := by
  unfold vp
  cases Dict.get? g.nodes v <;> simp

theorem ep_isOk {g : PGraph X} {e : Nat × Nat} {name : String} :
    (∃ x, g.ep e name = .ok x) ↔ ∃ d, Dict.get? g.edges e = some d := by
  unfold ep
  cases Dict.get? g.edges e <;> simp

/-- `vertex_properties()` after a call: the names from before, and a name the call gave to some vertex. Names never disappear. -/
theorem C129_vertex_properties (has : String → Bool) (g : PGraph X) (hg : Dict.Ok g.nodes) (c : Call X) (hc : c.Ok)
    (name : String) :
    name ∈ (g.call has c).1.vertexProperties ↔
      name ∈ g.vertexProperties ∨ ∃ v, (∃ x, g.vp v name = .ok x) ∧ (writesV c v name).isSome := by
  rw [mem_vertexProperties (call_nodes_ok has c hg), mem_vertexProperties hg]
  constructor
  · rintro ⟨v, d', h1, h2⟩
    cases hd : Dict.get? g.nodes v with
    | none =>
      rcases call_nodes_none has g c v hd with h | h
      · rw [h] at h1; simp at h1
      · rw [h] at h1
        obtain rfl := Option.some.inj h1
        simp [Dict.get?] at h2
    | some d =>
      obtain ⟨d2, h3, h4⟩ := call_nodes has g c hc v hd
      rw [h1] at h3
      obtain rfl := Option.some.inj h3
      rw [h4] at h2
      cases hw : writesV c v name with
      | none =>
        rw [hw] at h2
        exact Or.inl ⟨v, d, hd, by simpa using h2⟩
      | some x => exact Or.inr ⟨v, vp_isOk.mpr ⟨d, hd⟩, by simp [hw]⟩
  · rintro (⟨v, d, hd, hn⟩ | ⟨v, hv, hw⟩)
    · obtain ⟨d2, h3, h4⟩ := call_nodes has g c hc v hd
      refine ⟨v, d2, h3, ?_⟩
      rw [h4]
      cases writesV c v name <;> simp [hn]
    · obtain ⟨d, hd⟩ := vp_isOk.mp hv
      obtain ⟨d2, h3, h4⟩ := call_nodes has g c hc v hd
      refine ⟨v, d2, h3, ?_⟩
      rw [h4]
      cases h : writesV c v name <;> simp_all

/-- Every edge has a number, the numbers are below `_nE` and different, `_nE` is the number of edges. -/
structure Inv (g : PGraph X) : Prop where
  nodes : Dict.Ok g.nodes
  edges : Dict.Ok g.edges
  same : ∀ e, (Dict.get? g.index e).isSome ↔ (Dict.get? g.edges e).isSome
  below : ∀ e i, Dict.get? g.index e = some i → i < g.nE
  inj : ∀ e f i, Dict.get? g.index e = some i → Dict.get? g.index f = some i → e = f
  count : g.nE = g.edges.length

omit [PyConsts X] in
theorem Inv.of_eq {g g' : PGraph X} (h : g.Inv) (hn : Dict.Ok g'.nodes) (he : Dict.keys g'.edges = Dict.keys g.edges)
    (hi : g'.index = g.index) (hE : g'.nE = g.nE) : g'.Inv where
  nodes := hn
  edges := by have := h.edges; unfold Dict.Ok at this ⊢; rw [he]; exact this
  same e := by rw [hi, h.same, Dict.get?_isSome, Dict.get?_isSome, he]
  below e i := by rw [hi, hE]; exact h.below e i
  inj e f i := by rw [hi]; exact h.inj e f i
  count := by
    have := congrArg List.length he
    simp only [Dict.keys, List.length_map] at this
    rw [hE, this, h.count]

omit [PyConsts X] in
theorem setEp_keys (has : String → Bool) (g : PGraph X) (e : Nat × Nat) (name : String) (x : X) :
    Dict.keys (g.setEp has e name x).1.edges = Dict.keys g.edges := by
  unfold setEp
  split
  · rfl
  · rename_i d h
    have key : Dict.keys (Dict.set g.edges e (Dict.set d name x)) = Dict.keys g.edges := by
      rw [Dict.keys_set, if_pos (Dict.get?_isSome.mp (by simp [h]))]
    dsimp only
    split
    · split
      · exact key
      · rw [(writeAttr_keeps _ _ _ _ _).2.1]; exact key
    · exact key

theorem Inv.call {g : PGraph X} (h : g.Inv) (has : String → Bool) (c : Call X) : (g.call has c).1.Inv := by
  have hn := call_nodes_ok has c h.nodes
  cases c with
  | setVp w n x =>
    have := setVp_keeps has g w n x
    exact h.of_eq hn (by simp only [PGraph.call]; rw [this.1]) this.2.1 this.2.2.1
  | setEp e n x =>
    have := setEp_keeps has g e n x
    exact h.of_eq hn (setEp_keys has g e n x) this.2.1 this.2.2.1
  | newVertexProperty n =>
    have := newV_keeps g n
    exact h.of_eq hn (by simp only [PGraph.call]; rw [this.2.1]) this.2.2.1 this.2.2.2.1
  | newEdgeProperty n =>
    have := newE_keeps g n
    refine h.of_eq hn ?_ this.2.2.1 this.2.2.2.1
    simp only [PGraph.call]
    rw [this.1]
    exact Dict.keys_map g.edges (fun _ d => Dict.set d n (PyConsts.none : X))
  | setPos pos =>
    have := setPos_keeps g pos
    exact h.of_eq hn (by simp only [PGraph.call]; rw [this.2.1]) this.2.2.1 this.2.2.2.1
  | freeze => exact ⟨h.nodes, h.edges, h.same, h.below, h.inj, h.count⟩
  | addEdge u w attrs =>
    simp only [PGraph.call, addEdge] at hn ⊢
    by_cases hf : g.frozen
    · rw [if_pos hf]; exact h
    · rw [if_neg hf] at hn ⊢
      cases hx : Dict.get? g.index (u, w) with
      | some i =>
        rw [hx] at hn
        refine h.of_eq hn ?_ rfl rfl
        rw [Dict.keys_set, if_pos]
        rw [← Dict.get?_isSome, ← h.same, hx]; rfl
      | none =>
        rw [hx] at hn
        have hnew : (u, w) ∉ Dict.keys g.edges := by
          rw [← Dict.get?_isSome, ← h.same, hx]; simp
        refine ⟨hn, h.edges.set _ _, fun e => ?_, fun e i => ?_, fun e f i => ?_, ?_⟩
        · simp only [Dict.get?_set]
          split <;> simp [h.same]
        · simp only [Dict.get?_set]
          split
          · intro hi; obtain rfl := Option.some.inj hi; exact Nat.lt_succ_self _
          · intro hi; exact Nat.lt_succ_of_lt (h.below e i hi)
        · simp only [Dict.get?_set]
          split <;> split
          · rename_i h1 h2; intros; rw [h1, h2]
          · intro h1 h2
            obtain rfl := Option.some.inj h1
            exact absurd (h.below _ _ h2) (lt_irrefl _)
          · intro h1 h2
            obtain rfl := Option.some.inj h2
            exact absurd (h.below _ _ h1) (lt_irrefl _)
          · exact h.inj e f i
        · have : (Dict.keys (Dict.set g.edges (u, w) (Dict.update ((Dict.get? g.edges (u, w)).getD []) attrs))).length =
              g.edges.length + 1 := by
            rw [Dict.keys_set, if_neg hnew]; simp [Dict.keys]
          simp only [Dict.keys, List.length_map] at this
          dsimp only
          rw [this, h.count]

omit [PyConsts X] in
theorem Inv.new {nodes : Dict Nat (Dict String X)} {edges : Dict (Nat × Nat) (Dict String X)} (hn : Dict.Ok nodes)
    (he : Dict.Ok edges) : (new nodes edges).Inv := by
  have hnd : ((Dict.keys edges).insertionSort edgeLe).Nodup := (List.perm_insertionSort _ _).nodup_iff.mpr he
  have hlen : ((Dict.keys edges).insertionSort edgeLe).length = edges.length := by
    rw [List.length_insertionSort]; simp [Dict.keys]
  refine ⟨hn, he, fun e => ?_, fun e i hi => ?_, fun e f i h1 h2 => ?_, rfl⟩
  · rw [Dict.get?_isSome, Dict.get?_isSome]
    have : Dict.keys (K := Nat × Nat) (V := Nat) ((Dict.keys edges).insertionSort edgeLe).zipIdx =
        (Dict.keys edges).insertionSort edgeLe := List.zipIdx_map_fst 0 _
    show e ∈ Dict.keys (K := Nat × Nat) (V := Nat) ((Dict.keys edges).insertionSort edgeLe).zipIdx ↔ _
    rw [this, (List.perm_insertionSort _ _).mem_iff]
    rfl
  · have h1 := (zipIdx_get? hnd e i).mp hi
    have := (List.getElem?_eq_some_iff.mp h1).1
    rw [hlen] at this
    exact this
  · have h1' := (zipIdx_get? hnd e i).mp h1
    have h2' := (zipIdx_get? hnd f i).mp h2
    rw [h1'] at h2'
    exact Option.some.inj h2'

theorem Inv.calls {g : PGraph X} (h : g.Inv) (has : String → Bool) : ∀ cs : List (Call X), (g.calls has cs).Inv := by
  intro cs
  induction cs generalizing g with
  | nil => exact h
  | cons c cs ih => exact ih (h.call has c)

/-- `edge_properties()` after a call: the names from before, and a name the call gave to some edge (which `add_edge` may have
made). -/
theorem C129_edge_properties (has : String → Bool) (g : PGraph X) (hg : g.Inv) (c : Call X) (hc : c.Ok) (name : String) :
    name ∈ (g.call has c).1.edgeProperties ↔
      name ∈ g.edgeProperties ∨ ∃ e, (∃ x, (g.call has c).1.ep e name = .ok x) ∧ (writesE g.frozen c e name).isSome := by
  rw [mem_edgeProperties (hg.call has c).edges, mem_edgeProperties hg.edges]
  have hnone : ∀ e d', Dict.get? g.edges e = none → Dict.get? (g.call has c).1.edges e = some d' →
      ∀ name, Dict.get? d' name = writesE g.frozen c e name := by
    intro e d' hd h1 name
    cases c with
    | setVp w n x => simp only [PGraph.call] at h1; rw [(setVp_keeps _ _ _ _ _).1, hd] at h1; simp at h1
    | setEp f n x => simp only [PGraph.call] at h1; rw [setEp_edges, hd] at h1; simp at h1
    | newVertexProperty n => simp only [PGraph.call] at h1; rw [(newV_keeps _ _).2.1, hd] at h1; simp at h1
    | newEdgeProperty n =>
      simp only [PGraph.call] at h1
      rw [(newE_keeps _ _).1, Dict.get?_map g.edges (fun _ d => Dict.set d n (PyConsts.none : X)), hd] at h1; simp at h1
    | setPos pos => simp only [PGraph.call] at h1; rw [(setPos_keeps _ _).2.1, hd] at h1; simp at h1
    | freeze => simp only [PGraph.call, freeze] at h1; rw [hd] at h1; simp at h1
    | addEdge u w attrs =>
      simp only [PGraph.call] at h1
      rw [addEdge_edges, hd] at h1
      simp only [writesE]
      split at h1
      · rename_i h
        rw [if_pos h]
        obtain rfl := Option.some.inj h1
        rw [Option.getD_none, update_get? _ _ _ hc]
        simp [Dict.get?]
      · simp at h1
  constructor
  · rintro ⟨e, d', h1, h2⟩
    cases hd : Dict.get? g.edges e with
    | none =>
      rw [hnone e d' hd h1] at h2
      exact Or.inr ⟨e, ep_isOk.mpr ⟨d', h1⟩, h2⟩
    | some d =>
      obtain ⟨d2, h3, h4⟩ := call_edges has g c hc e hd
      rw [h1] at h3
      obtain rfl := Option.some.inj h3
      rw [h4] at h2
      cases hw : writesE g.frozen c e name with
      | none =>
        rw [hw] at h2
        exact Or.inl ⟨e, d, hd, by simpa using h2⟩
      | some x => exact Or.inr ⟨e, ep_isOk.mpr ⟨_, h1⟩, by simp [hw]⟩
  · rintro (⟨e, d, hd, hn⟩ | ⟨e, hv, hw⟩)
    · obtain ⟨d2, h3, h4⟩ := call_edges has g c hc e hd
      refine ⟨e, d2, h3, ?_⟩
      rw [h4]
      cases writesE g.frozen c e name <;> simp [hn]
    · obtain ⟨d', h1⟩ := ep_isOk.mp hv
      refine ⟨e, d', h1, ?_⟩
      cases hd : Dict.get? g.edges e with
      | none => rw [hnone e d' hd h1]; exact hw
      | some d =>
        obtain ⟨d2, h3, h4⟩ := call_edges has g c hc e hd
        rw [h1] at h3
        obtain rfl := Option.some.inj h3
        rw [h4]
        cases h : writesE g.frozen c e name <;> simp_all

/-- `is_edge(e)` is True exactly of the edges, whatever was called. -/
theorem C129_is_edge (has : String → Bool) {nodes : Dict Nat (Dict String X)} {edges : Dict (Nat × Nat) (Dict String X)}
    (hn : Dict.Ok nodes) (he : Dict.Ok edges) (cs : List (Call X)) (e : Nat × Nat) (name : String) :
    ((new nodes edges).calls has cs).isEdge e = true ↔ ∃ x, ((new nodes edges).calls has cs).ep e name = .ok x := by
  have h := (Inv.new hn he).calls has cs
  rw [ep_isOk, isEdge, h.same, Option.isSome_iff_exists]

/-- The ends of the edges added before the graph is frozen. -/
def addedEnds : List (Call X) → List Nat
  | [] => []
  | .freeze :: _ => []
  | .addEdge u v _ :: cs => u :: v :: addedEnds cs
  | _ :: cs => addedEnds cs

/-- The edges added before the graph is frozen. -/
def addedEdges : List (Call X) → List (Nat × Nat)
  | [] => []
  | .freeze :: _ => []
  | .addEdge u v _ :: cs => (u, v) :: addedEdges cs
  | _ :: cs => addedEdges cs

theorem call_vertex (has : String → Bool) (g : PGraph X) (c : Call X) (v : Nat) :
    (Dict.get? (g.call has c).1.nodes v).isSome ↔
      (Dict.get? g.nodes v).isSome ∨ ∃ u w a, c = .addEdge u w a ∧ g.frozen = false ∧ (v = u ∨ v = w) := by
  cases c with
  | setVp w n x =>
    simp only [PGraph.call]; rw [setVp_nodes]
    split <;> simp
  | setEp e n x => simp only [PGraph.call]; rw [(setEp_keeps _ _ _ _ _).1]; simp
  | newVertexProperty n =>
    simp only [PGraph.call]
    rw [(newV_keeps _ _).1, Dict.get?_map g.nodes (fun _ d => Dict.set d n (PyConsts.none : X))]; simp
  | newEdgeProperty n => simp only [PGraph.call]; rw [(newE_keeps _ _).2.1]; simp
  | setPos pos =>
    simp only [PGraph.call]
    rw [(setPos_keeps _ _).1, Dict.get?_isSome, Dict.get?_isSome, setAttrs_keys]; simp
  | freeze => simp [PGraph.call, freeze]
  | addEdge u w attrs =>
    simp only [PGraph.call]
    rw [addEdge_nodes]
    by_cases h : g.frozen = false ∧ (v = u ∨ v = w)
    · rw [if_pos h]
      simp only [Option.isSome_some, true_iff]
      exact Or.inr ⟨u, w, attrs, rfl, h.1, h.2⟩
    · rw [if_neg h]
      constructor
      · exact Or.inl
      · rintro (h' | ⟨u', w', a, hc, hf, hv⟩)
        · exact h'
        · cases hc; exact absurd ⟨hf, hv⟩ h

theorem call_edge (has : String → Bool) (g : PGraph X) (c : Call X) (e : Nat × Nat) :
    (Dict.get? (g.call has c).1.edges e).isSome ↔
      (Dict.get? g.edges e).isSome ∨ ∃ u w a, c = .addEdge u w a ∧ g.frozen = false ∧ (u, w) = e := by
  cases c with
  | setEp f n x =>
    simp only [PGraph.call]; rw [setEp_edges]
    split <;> simp
  | setVp v n x => simp only [PGraph.call]; rw [(setVp_keeps _ _ _ _ _).1]; simp
  | newEdgeProperty n =>
    simp only [PGraph.call]
    rw [(newE_keeps _ _).1, Dict.get?_map g.edges (fun _ d => Dict.set d n (PyConsts.none : X))]; simp
  | newVertexProperty n => simp only [PGraph.call]; rw [(newV_keeps _ _).2.1]; simp
  | setPos pos => simp only [PGraph.call]; rw [(setPos_keeps _ _).2.1]; simp
  | freeze => simp [PGraph.call, freeze]
  | addEdge u w attrs =>
    simp only [PGraph.call]
    rw [addEdge_edges]
    by_cases h : g.frozen = false ∧ (u, w) = e
    · rw [if_pos h]
      simp only [Option.isSome_some, true_iff]
      exact Or.inr ⟨u, w, attrs, rfl, h.1, h.2⟩
    · rw [if_neg h]
      constructor
      · exact Or.inl
      · rintro (h' | ⟨u', w', a, hc, hf, hv⟩)
        · exact h'
        · cases hc; exact absurd ⟨hf, hv⟩ h

theorem calls_frozen_vertex (has : String → Bool) (v : Nat) : ∀ (cs : List (Call X)) (g : PGraph X), g.frozen = true →
    ((Dict.get? (g.calls has cs).nodes v).isSome ↔ (Dict.get? g.nodes v).isSome)
  | [], _, _ => Iff.rfl
  | c :: cs, g, h => by
    rw [calls_cons, calls_frozen_vertex has v cs _ (by rw [call_frozen, h]; rfl), call_vertex]
    simp [h]

theorem calls_frozen_edge (has : String → Bool) (e : Nat × Nat) : ∀ (cs : List (Call X)) (g : PGraph X), g.frozen = true →
    ((Dict.get? (g.calls has cs).edges e).isSome ↔ (Dict.get? g.edges e).isSome)
  | [], _, _ => Iff.rfl
  | c :: cs, g, h => by
    rw [calls_cons, calls_frozen_edge has e cs _ (by rw [call_frozen, h]; rfl), call_edge]
    simp [h]

/-- The vertices of a graph after any calls: those from before and the ends of the edges added before `freeze()`. -/
theorem C129_vertices (has : String → Bool) (v : Nat) (name : String) : ∀ (cs : List (Call X)) (g : PGraph X), g.frozen = false →
    ((∃ x, (g.calls has cs).vp v name = .ok x) ↔ (∃ x, g.vp v name = .ok x) ∨ v ∈ addedEnds cs)
  | [], g, _ => by simp [addedEnds, PGraph.calls]
  | c :: cs, g, h => by
    have key : ∀ g : PGraph X, (∃ x, g.vp v name = .ok x) ↔ (Dict.get? g.nodes v).isSome := fun g => by
      rw [vp_isOk, Option.isSome_iff_exists]
    rw [calls_cons]
    by_cases hc : c.isFreeze
    · cases c <;> simp only [Call.isFreeze, reduceCtorEq] at hc
      rw [key, key, calls_frozen_vertex has v cs _ (by rfl)]
      simp [PGraph.call, freeze, addedEnds]
    · rw [C129_vertices has v name cs _ (by rw [call_frozen, h]; simpa using hc), key, key, call_vertex]
      cases c <;> simp_all [addedEnds, Call.isFreeze, or_assoc]

/-- The edges of a graph after any calls: those from before and those added before `freeze()`. -/
theorem C129_edges (has : String → Bool) (e : Nat × Nat) (name : String) : ∀ (cs : List (Call X)) (g : PGraph X),
    g.frozen = false →
    ((∃ x, (g.calls has cs).ep e name = .ok x) ↔ (∃ x, g.ep e name = .ok x) ∨ e ∈ addedEdges cs)
  | [], g, _ => by simp [addedEdges, PGraph.calls]
  | c :: cs, g, h => by
    have key : ∀ g : PGraph X, (∃ x, g.ep e name = .ok x) ↔ (Dict.get? g.edges e).isSome := fun g => by
      rw [ep_isOk, Option.isSome_iff_exists]
    rw [calls_cons]
    by_cases hc : c.isFreeze
    · cases c <;> simp only [Call.isFreeze, reduceCtorEq] at hc
      rw [key, key, calls_frozen_edge has e cs _ (by rfl)]
      simp [PGraph.call, freeze, addedEdges]
    · rw [C129_edges has e name cs _ (by rw [call_frozen, h]; simpa using hc), key, key, call_edge]
      cases c with
      | addEdge u w a =>
        simp only [addedEdges, List.mem_cons, or_assoc]
        refine or_congr Iff.rfl (or_congr ⟨?_, fun he => ⟨u, w, a, rfl, h, he.symm⟩⟩ Iff.rfl)
        rintro ⟨u', w', a', hc, -, he⟩
        cases hc
        exact he.symm
      | freeze => exact absurd rfl hc
      | _ => simp [addedEdges]

theorem call_frozen_index (has : String → Bool) (g : PGraph X) (h : g.frozen = true) (c : Call X) :
    (g.call has c).1.index = g.index := by
  cases c with
  | setVp w n x => exact (setVp_keeps has g w n x).2.1
  | setEp e n x => exact (setEp_keeps has g e n x).2.1
  | newVertexProperty n => exact (newV_keeps g n).2.2.1
  | newEdgeProperty n => exact (newE_keeps g n).2.2.1
  | setPos pos => exact (setPos_keeps g pos).2.2.1
  | addEdge u w attrs => simp [PGraph.call, addEdge, h]
  | freeze => rfl

/-- A frozen graph keeps its vertices, its edges and their numbers for ever; `add_edge` raises NetworkXError and does nothing. -/
theorem C129_frozen (has : String → Bool) (g : PGraph X) (h : g.frozen = true) (cs : List (Call X)) (name : String) :
    (∀ v, (∃ x, (g.calls has cs).vp v name = .ok x) ↔ ∃ x, g.vp v name = .ok x) ∧
    (∀ e, (∃ x, (g.calls has cs).ep e name = .ok x) ↔ ∃ x, g.ep e name = .ok x) ∧
    (g.calls has cs).index = g.index ∧
    ∀ u v attrs, (g.calls has cs).addEdge u v attrs = (g.calls has cs, some .networkx) := by
  refine ⟨fun v => ?_, fun e => ?_, ?_, ?_⟩
  · rw [vp_isOk, vp_isOk, ← Option.isSome_iff_exists, ← Option.isSome_iff_exists, calls_frozen_vertex has v cs g h]
  · rw [ep_isOk, ep_isOk, ← Option.isSome_iff_exists, ← Option.isSome_iff_exists, calls_frozen_edge has e cs g h]
  · induction cs generalizing g with
    | nil => rfl
    | cons c cs ih => rw [calls_cons, ih _ (by rw [call_frozen, h]; rfl), call_frozen_index has g h]
  · have : (g.calls has cs).frozen = true := by
      induction cs generalizing g with
      | nil => exact h
      | cons c cs ih => exact ih _ (by rw [call_frozen, h]; rfl)
    intro u v attrs
    simp [addEdge, this]

/-! ## When the methods raise, and what they leave behind -/

/-- `set_vp(v, name, x)` raises KeyError and does nothing if there is no vertex `v`. If there is, it gives `v` the property
even when it raises; and it raises exactly if the graph has an attribute `name` that cannot take the value: an array that is
None (TypeError) or too short (IndexError), or anything else (TypeError). -/
theorem C129_set_vp (has : String → Bool) (g : PGraph X) (v : Nat) (name : String) (x : X) :
    ((∀ y, g.vp v name ≠ .ok y) → g.setVp has v name x = (g, some (.py .keyError))) ∧
    ((∃ y, g.vp v name = .ok y) → (g.setVp has v name x).1.vp v name = .ok x ∧
      (g.setVp has v name x).2 =
        match arrOf name with
        | none => if has name ∨ (g.frozen ∧ name = "frozen") then some (.py .typeError) else none
        | some a =>
          match g.arr a with
          | none => some (.py .typeError)
          | some l => if v < l.length then none else some (.py .indexError)) := by
  constructor
  · intro h
    have : Dict.get? g.nodes v = none := by
      cases hd : Dict.get? g.nodes v with
      | none => rfl
      | some d => obtain ⟨y, hy⟩ := (vp_isOk (name := name)).mpr ⟨d, hd⟩; exact absurd hy (h y)
    simp [setVp, this]
  · intro h
    obtain ⟨d, hd⟩ := vp_isOk.mp h
    constructor
    · unfold vp
      rw [setVp_nodes, hd]
      simp [Dict.get?_set]
    · simp only [setVp, hd, writeAttr]
      cases ha : arrOf name with
      | none => dsimp only; simp; split <;> simp_all
      | some a =>
        dsimp only
        have : ({ g with nodes := Dict.set g.nodes v (Dict.set d name x) } : PGraph X).arr a = g.arr a := by cases a <;> rfl
        rw [this]
        cases g.arr a with
        | none => rfl
        | some l => dsimp only; split <;> rfl

/-- The same for `set_ep(e, name, x)`; the item written is the one with the number of the edge. -/
theorem C129_set_ep (has : String → Bool) (g : PGraph X) (e : Nat × Nat) (name : String) (x : X) :
    ((∀ y, g.ep e name ≠ .ok y) → g.setEp has e name x = (g, some (.py .keyError))) ∧
    ((∃ y, g.ep e name = .ok y) → (g.setEp has e name x).1.ep e name = .ok x ∧
      ∀ i, Dict.get? g.index e = some i → (g.setEp has e name x).2 =
        match arrOf name with
        | none => if has name ∨ (g.frozen ∧ name = "frozen") then some (.py .typeError) else none
        | some a =>
          match g.arr a with
          | none => some (.py .typeError)
          | some l => if i < l.length then none else some (.py .indexError)) := by
  constructor
  · intro h
    have : Dict.get? g.edges e = none := by
      cases hd : Dict.get? g.edges e with
      | none => rfl
      | some d => obtain ⟨y, hy⟩ := (ep_isOk (name := name)).mpr ⟨d, hd⟩; exact absurd hy (h y)
    simp [setEp, this]
  · intro h
    obtain ⟨d, hd⟩ := ep_isOk.mp h
    constructor
    · unfold ep
      rw [setEp_edges, hd]
      simp [Dict.get?_set]
    · intro i hi
      simp only [setEp, hd, hi, writeAttr]
      cases ha : arrOf name with
      | none =>
        by_cases hh : (has name || (g.frozen && decide (name = "frozen"))) = true
        · simp only [Option.isSome_none, Bool.false_or]
          rw [if_pos hh, if_pos hh, if_pos (by simpa using hh)]
        · simp only [Option.isSome_none, Bool.false_or]
          rw [if_neg hh, if_neg (by simpa using hh)]
      | some a =>
        have : ({ g with edges := Dict.set g.edges e (Dict.set d name x) } : PGraph X).arr a = g.arr a := by cases a <;> rfl
        simp only [Option.isSome_some, Bool.true_or, if_true]
        rw [this]
        cases g.arr a with
        | none => rfl
        | some l => dsimp only; split <;> rfl

omit [PyConsts X] in
theorem lookAll_none {P : Type*} (pos : Dict Nat P) : ∀ l : List Nat,
    Canvas.lookAll pos l = none ↔ ∃ v ∈ l, Dict.get? pos v = none
  | [] => by simp [Canvas.lookAll]
  | v :: l => by
    have ih := lookAll_none pos l
    unfold Canvas.lookAll
    cases h : Dict.get? pos v with
    | none => simp [h]
    | some p => simp [h, ih]

omit [PyConsts X] in
theorem lookAll_get {P : Type*} (pos : Dict Nat P) : ∀ (l : List Nat) {r : List P}, Canvas.lookAll pos l = some r →
    r.map some = l.map (Dict.get? pos)
  | [], r, h => by simp only [Canvas.lookAll, Option.some.injEq] at h; subst h; rfl
  | v :: l, r, h => by
    unfold Canvas.lookAll at h
    cases hv : Dict.get? pos v with
    | none => simp [hv] at h
    | some p =>
      rw [hv] at h
      simp only [Option.map_eq_some_iff] at h
      obtain ⟨r', h1, rfl⟩ := h
      simp [hv, lookAll_get pos l h1]

/-- `set_pos(pos)` raises KeyError exactly if some vertex is not in `pos`; also then the vertices in `pos` have the new property,
while the array `pos` is the old one. Otherwise the array has the positions in the order of the vertices. -/
theorem C129_set_pos (g : PGraph X) (pos : Dict Nat X) (hp : Dict.Ok pos) :
    ((g.setPos pos).2 = none ↔ ∀ v, (∃ x, g.vp v "pos" = .ok x) → ∃ p, Dict.get? pos v = some p) ∧
    ((g.setPos pos).2 ≠ none → (g.setPos pos).2 = some (.py .keyError) ∧ (g.setPos pos).1.pos = g.pos) ∧
    ((g.setPos pos).2 = none → ∃ l, (g.setPos pos).1.pos = some l ∧ l.map some = (Dict.keys g.nodes).map (Dict.get? pos)) ∧
    ∀ v p, (∃ x, g.vp v "pos" = .ok x) → Dict.get? pos v = some p → (g.setPos pos).1.vp v "pos" = .ok p := by
  have hnone : (g.setPos pos).2 = none ↔ Canvas.lookAll pos (Dict.keys g.nodes) ≠ none := by
    unfold setPos
    dsimp only
    rw [setAttrs_keys]
    cases Canvas.lookAll pos (Dict.keys g.nodes) <;> simp
  refine ⟨?_, fun h => ?_, fun h => ?_, fun v p hv hpv => ?_⟩
  · rw [hnone, Ne, lookAll_none]
    constructor
    · intro h v hv
      obtain ⟨d, hd⟩ := vp_isOk.mp hv
      cases hq : Dict.get? pos v with
      | some p => exact ⟨p, rfl⟩
      | none => exact absurd ⟨v, Dict.get?_isSome.mp (by simp [hd]), hq⟩ h
    · rintro h ⟨v, hv, hq⟩
      obtain ⟨d, hd⟩ := Option.isSome_iff_exists.mp (Dict.get?_isSome.mpr hv)
      obtain ⟨p, hp⟩ := h v (vp_isOk.mpr ⟨d, hd⟩)
      rw [hq] at hp
      simp at hp
  · rw [Ne, hnone, not_not] at h
    unfold setPos
    dsimp only
    rw [setAttrs_keys, h]
    simp
  · rw [hnone] at h
    obtain ⟨l, hl⟩ := Option.ne_none_iff_exists'.mp h
    refine ⟨l, ?_, lookAll_get pos _ hl⟩
    unfold setPos
    dsimp only
    rw [setAttrs_keys, hl]
  · obtain ⟨d, hd⟩ := vp_isOk.mp hv
    unfold vp
    rw [(setPos_keeps g pos).1, setAttrs_get? _ _ _ _ hp, hd, hpv]
    simp [Dict.get?_set]

/-! ## The arrays of colours -/

/-- The names of colours of vertices are not used for properties of edges. -/
def Call.VProper : Call X → Prop
  | .setEp _ name _ => name ≠ "vertex_color" ∧ name ≠ "vertex_fill_color"
  | _ => True

/-- The name of colours of edges is not used for properties of vertices, nor are colours passed to `add_edge`. -/
def Call.EProper : Call X → Prop
  | .setVp _ name _ => name ≠ "edge_color"
  | .addEdge _ _ attrs => Dict.get? attrs "edge_color" = none
  | _ => True

/-- The array of the colours of vertices called `name`. -/
def vertexArr (g : PGraph X) (name : String) : Option (List X) := if name = "vertex_color" then g.vertexColor else g.vertexFill

/-- `vp(v, name)`, None for what is no vertex. -/
def valV (g : PGraph X) (v : Nat) (name : String) : X := ((Dict.get? g.nodes v).bind (Dict.get? · name)).getD PyConsts.none

/-- `ep(e, name)`, None for what is no edge. -/
def valE (g : PGraph X) (e : Nat × Nat) (name : String) : X := ((Dict.get? g.edges e).bind (Dict.get? · name)).getD PyConsts.none

theorem call_valV (has : String → Bool) (g : PGraph X) (c : Call X) (hc : c.Ok) (v : Nat) (name : String) :
    valV (g.call has c).1 v name =
      if (Dict.get? g.nodes v).isSome then (writesV c v name).getD (valV g v name) else PyConsts.none := by
  unfold valV
  cases hd : Dict.get? g.nodes v with
  | none =>
    rcases call_nodes_none has g c v hd with h | h <;> rw [h] <;> simp [Dict.get?]
  | some d =>
    obtain ⟨d', h1, h2⟩ := call_nodes has g c hc v hd
    rw [h1]
    simp only [Option.bind_some, h2]
    cases writesV c v name <;> simp

/-- What a call does to an array of colours of vertices. -/
theorem call_vertexArr (has : String → Bool) (g : PGraph X) (c : Call X) (hp : c.VProper) {name : String}
    (hname : name = "vertex_color" ∨ name = "vertex_fill_color") :
    vertexArr (g.call has c).1 name =
      match c with
      | .setVp v n x => if n = name ∧ (Dict.get? g.nodes v).isSome then (vertexArr g name).map (·.set v x) else vertexArr g name
      | .newVertexProperty n => if n = name then some (List.replicate g.nodes.length PyConsts.zero) else vertexArr g name
      | _ => vertexArr g name := by
  cases c with
  | setVp v n x =>
    simp only [PGraph.call, setVp]
    cases hd : Dict.get? g.nodes v with
    | none => simp
    | some d =>
      simp only [Option.isSome_some, and_true, writeAttr, arrOf]
      by_cases h1 : n = "pos"
      · subst h1
        rcases hname with rfl | rfl <;>
        · simp only [arr, if_true]
          cases g.pos with
          | none => simp [vertexArr]
          | some l => dsimp only; split <;> simp [vertexArr, setArr]
      by_cases h2 : n = "edge_color"
      · subst h2
        rcases hname with rfl | rfl <;>
        · simp only [arr, if_neg h1, if_true]
          cases g.edgeColor with
          | none => simp [vertexArr]
          | some l => dsimp only; split <;> simp [vertexArr, setArr]
      by_cases h3 : n = "vertex_color"
      · subst h3
        rcases hname with rfl | rfl
        · simp only [arr, if_neg h1, if_neg h2, if_true]
          cases hl : g.vertexColor with
          | none => simp [vertexArr, hl]
          | some l =>
            dsimp only
            split
            · simp [vertexArr, setArr, hl]
            · rename_i hlt
              simp [vertexArr, hl, List.set_eq_of_length_le (Nat.le_of_not_lt hlt)]
        · simp only [arr, if_neg h1, if_neg h2, if_true]
          cases hl : g.vertexColor with
          | none => simp [vertexArr]
          | some l => dsimp only; split <;> simp [vertexArr, setArr]
      by_cases h4 : n = "vertex_fill_color"
      · subst h4
        rcases hname with rfl | rfl
        · simp only [arr, if_neg h1, if_neg h2, if_neg h3, if_true]
          cases hl : g.vertexFill with
          | none => simp [vertexArr]
          | some l => dsimp only; split <;> simp [vertexArr, setArr]
        · simp only [arr, if_neg h1, if_neg h2, if_neg h3, if_true]
          cases hl : g.vertexFill with
          | none => simp [vertexArr, hl]
          | some l =>
            dsimp only
            split
            · simp [vertexArr, setArr, hl]
            · rename_i hlt
              simp [vertexArr, hl, List.set_eq_of_length_le (Nat.le_of_not_lt hlt)]
      · have : n ≠ name := by rcases hname with rfl | rfl <;> assumption
        simp only [if_neg h1, if_neg h2, if_neg h3, if_neg h4, if_neg this]
        split <;> simp [vertexArr]
  | setEp e n x =>
    simp only [PGraph.call, setEp]
    cases hd : Dict.get? g.edges e with
    | none => rfl
    | some d =>
      dsimp only
      split
      · split
        · simp [vertexArr]
        · simp only [writeAttr, arrOf]
          by_cases h1 : n = "pos"
          · subst h1
            simp only [arr, if_true]
            cases g.pos with
            | none => simp [vertexArr]
            | some l => dsimp only; split <;> simp [vertexArr, setArr]
          by_cases h2 : n = "edge_color"
          · subst h2
            simp only [arr, if_neg h1, if_true]
            cases g.edgeColor with
            | none => simp [vertexArr]
            | some l => dsimp only; split <;> simp [vertexArr, setArr]
          · simp only [if_neg h1, if_neg h2, if_neg hp.1, if_neg hp.2]
            split <;> simp [vertexArr]
      · simp [vertexArr]
  | newVertexProperty n =>
    simp only [PGraph.call, newVertexProperty, vertexArr]
    rcases hname with rfl | rfl
    · by_cases h : n = "vertex_color"
      · subst h; simp
      · simp only [h, if_false, if_true]; split <;> simp
    · by_cases h : n = "vertex_fill_color"
      · subst h; simp
      · have hne : ("vertex_fill_color" : String) ≠ "vertex_color" := by decide
        simp only [h, if_false, if_neg hne]
        by_cases h' : n = "vertex_color" <;> simp [h']
  | newEdgeProperty n =>
    simp only [PGraph.call, newEdgeProperty, vertexArr]
    split <;> split <;> rfl
  | setPos pos =>
    simp only [PGraph.call, setPos, vertexArr]
    split <;> split <;> rfl
  | addEdge u w attrs =>
    have := addEdge_keeps g u w attrs
    simp only [PGraph.call, vertexArr, this.2.2.2.1, this.2.2.2.2]
  | freeze => rfl

/-- The colours of vertices in the array are the properties, or zero where there is none. -/
def VInv (g : PGraph X) (name : String) : Prop :=
  ∀ l, vertexArr g name = some l → ∀ v y, l[v]? = some y → y = valV g v name ∨ (valV g v name = PyConsts.none ∧ y = PyConsts.zero)

theorem VInv.call {g : PGraph X} {name : String} (hname : name = "vertex_color" ∨ name = "vertex_fill_color")
    (h : VInv g name) (has : String → Bool) (c : Call X) (hc : c.Ok) (hp : c.VProper) : VInv (g.call has c).1 name := by
  intro l hl v y hy
  rw [call_vertexArr has g c hp hname] at hl
  rw [call_valV has g c hc]
  have old : ∀ l', vertexArr g name = some l' → l'[v]? = some y → writesV c v name = none →
      y = (if (Dict.get? g.nodes v).isSome then (writesV c v name).getD (valV g v name) else PyConsts.none) ∨
      ((if (Dict.get? g.nodes v).isSome then (writesV c v name).getD (valV g v name) else PyConsts.none) = PyConsts.none ∧
        y = PyConsts.zero) := by
    intro l' h1 h2 h3
    rw [h3, Option.getD_none]
    have h4 := h l' h1 v y h2
    split
    · exact h4
    · rename_i hn
      have : valV g v name = PyConsts.none := by
        unfold valV
        cases hd : Dict.get? g.nodes v with
        | none => rfl
        | some d => simp [hd] at hn
      rw [this] at h4
      simpa using h4
  cases c with
  | setVp w n x =>
    dsimp only at hl
    split at hl
    · rename_i hcond
      obtain ⟨hn, hw⟩ := hcond
      simp only [Option.map_eq_some_iff] at hl
      obtain ⟨l0, hl0, rfl⟩ := hl
      by_cases hvw : w = v
      · subst hvw
        rw [if_pos hw]
        simp only [writesV, hn, and_self, if_true, Option.getD_some]
        rw [List.getElem?_set_self'] at hy
        cases hq : l0[w]? with
        | none => simp [hq] at hy
        | some q => simp [hq] at hy; exact Or.inl hy.symm
      · rw [List.getElem?_set_ne hvw] at hy
        exact old l0 hl0 hy (by simp [writesV, hvw])
    · rename_i hcond
      by_cases hwn : w = v ∧ n = name
      · obtain ⟨rfl, rfl⟩ := hwn
        have hnone : Dict.get? g.nodes w = none := by
          cases hd : Dict.get? g.nodes w with
          | none => rfl
          | some d => exact absurd ⟨rfl, by simp [hd]⟩ hcond
        have h4 := h l hl w y hy
        have : valV g w n = PyConsts.none := by simp [valV, hnone]
        rw [this] at h4
        simpa [hnone] using h4
      · exact old l hl hy (by simp only [writesV, if_neg hwn])
  | newVertexProperty n =>
    dsimp only at hl
    split at hl
    · rename_i hn
      obtain rfl := Option.some.inj hl
      have hy' : y = PyConsts.zero := by
        rw [List.getElem?_replicate] at hy
        split at hy
        · exact (Option.some.inj hy).symm
        · simp at hy
      right
      refine ⟨?_, hy'⟩
      split <;> simp [writesV, hn]
    · rename_i hn
      exact old l hl hy (by simp [writesV, hn])
  | setPos pos =>
    exact old l hl hy (by rcases hname with rfl | rfl <;> simp [writesV])
  | setEp e n x => exact old l hl hy rfl
  | newEdgeProperty n => exact old l hl hy rfl
  | addEdge u w attrs => exact old l hl hy rfl
  | freeze => exact old l hl hy rfl

theorem VInv.calls {name : String} (hname : name = "vertex_color" ∨ name = "vertex_fill_color") (has : String → Bool) :
    ∀ (cs : List (Call X)) {g : PGraph X}, VInv g name → (∀ c ∈ cs, c.Ok ∧ c.VProper) → VInv (g.calls has cs) name
  | [], _, h, _ => h
  | c :: cs, _, h, hc =>
    VInv.calls hname has cs (h.call hname has c (hc c (by simp)).1 (hc c (by simp)).2) fun c h => hc c (by simp [h])

/-- After any calls the entry of a vertex in the array `vertex_color` or `vertex_fill_color` is the property of that vertex, or
zero while the property is None. PARTIAL: only if `set_ep` is not called with the name of the array. -/
theorem C129_vertex_colors_partial (has : String → Bool) (nodes : Dict Nat (Dict String X)) (edges : Dict (Nat × Nat) (Dict String X))
    (cs : List (Call X)) (hc : ∀ c ∈ cs, c.Ok ∧ c.VProper) :
    (∀ l, ((new nodes edges).calls has cs).vertexColor = some l → ∀ v y x, l[v]? = some y →
      ((new nodes edges).calls has cs).vp v "vertex_color" = .ok x → y = x ∨ (x = PyConsts.none ∧ y = PyConsts.zero)) ∧
    (∀ l, ((new nodes edges).calls has cs).vertexFill = some l → ∀ v y x, l[v]? = some y →
      ((new nodes edges).calls has cs).vp v "vertex_fill_color" = .ok x → y = x ∨ (x = PyConsts.none ∧ y = PyConsts.zero)) := by
  have hval : ∀ (g : PGraph X) v name x, g.vp v name = .ok x → valV g v name = x := by
    intro g v name x h
    unfold vp at h
    unfold valV
    cases hd : Dict.get? g.nodes v with
    | none => simp [hd] at h
    | some d => rw [hd] at h; simpa using h
  constructor
  · intro l hl v y x hy hx
    have := VInv.calls (Or.inl rfl) has cs (g := new nodes edges) (name := "vertex_color")
      (by intro l h; simp [vertexArr, PGraph.new] at h) hc l hl v y hy
    rwa [hval _ _ _ _ hx] at this
  · intro l hl v y x hy hx
    have := VInv.calls (Or.inr rfl) has cs (g := new nodes edges) (name := "vertex_fill_color")
      (by intro l h; simp [vertexArr, PGraph.new] at h) hc l (by simpa [vertexArr] using hl) v y hy
    rwa [hval _ _ _ _ hx] at this

theorem arrOf_edge {n : String} (h : arrOf n = some .edgeColor) : n = "edge_color" := by
  unfold arrOf at h
  split_ifs at h <;> simp_all

/-- What a call does to the array of colours of edges. -/
theorem call_edgeColor (has : String → Bool) (g : PGraph X) (c : Call X) (hp : c.EProper) :
    (g.call has c).1.edgeColor =
      match c with
      | .setEp e n x => if n = "edge_color" ∧ (Dict.get? g.edges e).isSome then
          match Dict.get? g.index e with
          | some i => g.edgeColor.map (·.set i x)
          | none => g.edgeColor
        else g.edgeColor
      | .newEdgeProperty n => if n = "edge_color" then some (List.replicate g.edges.length PyConsts.zeros) else g.edgeColor
      | _ => g.edgeColor := by
  cases c with
  | setVp v n x =>
    simp only [PGraph.call, setVp]
    cases hd : Dict.get? g.nodes v with
    | none => rfl
    | some d =>
      have hp' : n ≠ "edge_color" := hp
      simp only [writeAttr]
      cases ha : arrOf n with
      | none => dsimp only; split <;> rfl
      | some a =>
        have : a ≠ .edgeColor := by rintro rfl; exact hp' (arrOf_edge ha)
        dsimp only
        split
        · rfl
        · split
          · cases a <;> simp_all [setArr]
          · rfl
  | setEp e n x =>
    simp only [PGraph.call, setEp]
    cases hd : Dict.get? g.edges e with
    | none => simp
    | some d =>
      by_cases hn : n = "edge_color"
      · subst hn
        simp only [arrOf]
        cases hi : Dict.get? g.index e with
        | none => simp
        | some i =>
          simp only [writeAttr, arrOf, arr]
          cases hl : g.edgeColor with
          | none => simp
          | some l =>
            by_cases hlt : i < l.length
            · simp [hlt, setArr]
            · simp [hlt, List.set_eq_of_length_le (Nat.le_of_not_lt hlt)]
      · simp only [hn, false_and, if_false]
        split
        · split
          · rfl
          · simp only [writeAttr]
            cases ha : arrOf n with
            | none => dsimp only; split <;> rfl
            | some a =>
              have : a ≠ .edgeColor := by rintro rfl; exact hn (arrOf_edge ha)
              dsimp only
              split
              · rfl
              · split
                · cases a <;> simp_all [setArr]
                · rfl
        · rfl
  | newVertexProperty n =>
    simp only [PGraph.call, newVertexProperty]
    split <;> split <;> rfl
  | newEdgeProperty n =>
    simp only [PGraph.call, newEdgeProperty]
    split <;> simp_all
  | setPos pos =>
    simp only [PGraph.call, setPos]
    split <;> rfl
  | addEdge u w attrs => exact (addEdge_keeps g u w attrs).2.2.1
  | freeze => rfl

/-- The colours of edges in the array are the properties, or zeros where there is none. -/
def EInv (g : PGraph X) : Prop :=
  ∀ l, g.edgeColor = some l → l.length ≤ g.nE ∧ ∀ e i y, Dict.get? g.index e = some i → l[i]? = some y →
    y = valE g e "edge_color" ∨ (valE g e "edge_color" = PyConsts.none ∧ y = PyConsts.zeros)

theorem call_valE (has : String → Bool) (g : PGraph X) (c : Call X) (hc : c.Ok) (e : Nat × Nat) (name : String)
    (he : (Dict.get? g.edges e).isSome) :
    valE (g.call has c).1 e name = (writesE g.frozen c e name).getD (valE g e name) := by
  unfold valE
  obtain ⟨d, hd⟩ := Option.isSome_iff_exists.mp he
  obtain ⟨d', h1, h2⟩ := call_edges has g c hc e hd
  rw [h1, hd]
  simp only [Option.bind_some, h2]
  cases writesE g.frozen c e name <;> simp

omit [PyConsts X] in
theorem addEdge_index (g : PGraph X) (u w : Nat) (attrs : Dict String X) :
    g.nE ≤ (g.addEdge u w attrs).1.nE ∧
    ∀ e i, Dict.get? (g.addEdge u w attrs).1.index e = some i → i < g.nE → Dict.get? g.index e = some i := by
  unfold addEdge
  split
  · exact ⟨le_rfl, fun e i h _ => h⟩
  · dsimp only
    split
    · exact ⟨le_rfl, fun e i h _ => h⟩
    · refine ⟨Nat.le_succ _, fun e i h hi => ?_⟩
      dsimp only at h
      rw [Dict.get?_set] at h
      split at h
      · obtain rfl := Option.some.inj h
        exact absurd hi (lt_irrefl _)
      · exact h

theorem EInv.call {g : PGraph X} (hg : g.Inv) (h : EInv g) (has : String → Bool) (c : Call X) (hc : c.Ok) (hp : c.EProper) :
    EInv (g.call has c).1 := by
  intro l hl
  rw [call_edgeColor has g c hp] at hl
  have hold : ∀ e i, Dict.get? g.index e = some i → (Dict.get? g.edges e).isSome := fun e i hi =>
    (hg.same e).mp (by simp [hi])
  cases c with
  | setEp f n x =>
    have hk := setEp_keeps has g f n x
    simp only [PGraph.call] at hl ⊢
    rw [hk.2.1, hk.2.2.1]
    by_cases hn : n = "edge_color" ∧ (Dict.get? g.edges f).isSome
    · rw [if_pos hn] at hl
      obtain ⟨j, hj⟩ := Option.isSome_iff_exists.mp ((hg.same f).mpr hn.2)
      rw [hj] at hl
      simp only [Option.map_eq_some_iff] at hl
      obtain ⟨l0, hl0, rfl⟩ := hl
      obtain ⟨h1, h2⟩ := h l0 hl0
      refine ⟨by simpa using h1, fun e i y hi hy => ?_⟩
      have hv := call_valE has g (.setEp f n x) hc e "edge_color" (hold e i hi)
      simp only [PGraph.call] at hv
      rw [hv]
      by_cases hij : j = i
      · subst hij
        obtain rfl := hg.inj f e j hj hi
        rw [List.getElem?_set_self'] at hy
        simp only [writesE, hn.1, and_self, if_true, Option.getD_some]
        cases hq : l0[j]? with
        | none => simp [hq] at hy
        | some q => simp [hq] at hy; exact Or.inl hy.symm
      · rw [List.getElem?_set_ne hij] at hy
        have hfe : f ≠ e := by rintro rfl; rw [hj] at hi; exact hij (Option.some.inj hi)
        simp only [writesE, hfe, false_and, if_false, Option.getD_none]
        exact h2 e i y hi hy
    · rw [if_neg hn] at hl
      obtain ⟨h1, h2⟩ := h l hl
      refine ⟨h1, fun e i y hi hy => ?_⟩
      have hv := call_valE has g (.setEp f n x) hc e "edge_color" (hold e i hi)
      simp only [PGraph.call] at hv
      rw [hv]
      have hne : ¬(f = e ∧ n = "edge_color") := by
        rintro ⟨rfl, hn'⟩; exact hn ⟨hn', hold f i hi⟩
      simp only [writesE, if_neg hne, Option.getD_none]
      exact h2 e i y hi hy
  | newEdgeProperty n =>
    have hk := newE_keeps g n
    simp only [PGraph.call] at hl ⊢
    rw [hk.2.2.1, hk.2.2.2.1]
    by_cases hn : n = "edge_color"
    · rw [if_pos hn] at hl
      obtain rfl := Option.some.inj hl
      refine ⟨by simp [hg.count], fun e i y hi hy => ?_⟩
      have hv := call_valE has g (.newEdgeProperty n) hc e "edge_color" (hold e i hi)
      simp only [PGraph.call] at hv
      rw [hv]
      have hy' : y = PyConsts.zeros := by
        rw [List.getElem?_replicate] at hy
        split at hy
        · exact (Option.some.inj hy).symm
        · simp at hy
      exact Or.inr ⟨by simp [writesE, hn], hy'⟩
    · rw [if_neg hn] at hl
      obtain ⟨h1, h2⟩ := h l hl
      refine ⟨h1, fun e i y hi hy => ?_⟩
      have hv := call_valE has g (.newEdgeProperty n) hc e "edge_color" (hold e i hi)
      simp only [PGraph.call] at hv
      rw [hv]
      simp only [writesE, if_neg hn, Option.getD_none]
      exact h2 e i y hi hy
  | addEdge u w attrs =>
    dsimp only at hl
    obtain ⟨h1, h2⟩ := h l hl
    have hk := addEdge_index g u w attrs
    refine ⟨h1.trans hk.1, fun e i y hi hy => ?_⟩
    have hlt : i < g.nE := lt_of_lt_of_le (List.getElem?_eq_some_iff.mp hy).1 h1
    have hi' := hk.2 e i hi hlt
    rw [call_valE has g (.addEdge u w attrs) hc e "edge_color" (hold e i hi')]
    have : writesE g.frozen (.addEdge u w attrs) e "edge_color" = none := by
      have hp' : Dict.get? attrs "edge_color" = none := hp
      simp [writesE, hp']
    rw [this, Option.getD_none]
    exact h2 e i y hi' hy
  | setVp w n x =>
    dsimp only at hl
    have hk := setVp_keeps has g w n x
    obtain ⟨h1, h2⟩ := h l hl
    refine ⟨by simp only [PGraph.call]; rw [hk.2.2.1]; exact h1, fun e i y hi hy => ?_⟩
    have hi' : Dict.get? g.index e = some i := by simpa only [PGraph.call, hk.2.1] using hi
    rw [call_valE has g (.setVp w n x) hc e "edge_color" (hold e i hi')]
    exact h2 e i y hi' hy
  | newVertexProperty n =>
    dsimp only at hl
    have hk := newV_keeps g n
    obtain ⟨h1, h2⟩ := h l hl
    refine ⟨by simp only [PGraph.call]; rw [hk.2.2.2.1]; exact h1, fun e i y hi hy => ?_⟩
    have hi' : Dict.get? g.index e = some i := by simpa only [PGraph.call, hk.2.2.1] using hi
    rw [call_valE has g (.newVertexProperty n) hc e "edge_color" (hold e i hi')]
    exact h2 e i y hi' hy
  | setPos pos =>
    dsimp only at hl
    have hk := setPos_keeps g pos
    obtain ⟨h1, h2⟩ := h l hl
    refine ⟨by simp only [PGraph.call]; rw [hk.2.2.2.1]; exact h1, fun e i y hi hy => ?_⟩
    have hi' : Dict.get? g.index e = some i := by simpa only [PGraph.call, hk.2.2.1] using hi
    rw [call_valE has g (.setPos pos) hc e "edge_color" (hold e i hi')]
    exact h2 e i y hi' hy
  | freeze => exact h l hl

/-- After any calls the entry of an edge in the array `edge_color` is the property of that edge, or zeros while the property is
None. PARTIAL: only if `set_vp` is not called with the name `edge_color` and `add_edge` is not given a property of that name. -/
theorem C129_edge_colors_partial (has : String → Bool) {nodes : Dict Nat (Dict String X)}
    {edges : Dict (Nat × Nat) (Dict String X)} (hn : Dict.Ok nodes) (he : Dict.Ok edges)
    (cs : List (Call X)) (hc : ∀ c ∈ cs, c.Ok ∧ c.EProper) {l : List X}
    (hl : ((new nodes edges).calls has cs).edgeColor = some l) {e : Nat × Nat} {i : Nat} {x y : X}
    (hi : Dict.get? ((new nodes edges).calls has cs).index e = some i) (hy : l[i]? = some y)
    (hx : ((new nodes edges).calls has cs).ep e "edge_color" = .ok x) :
    y = x ∨ (x = PyConsts.none ∧ y = PyConsts.zeros) := by
  have key : ∀ (cs : List (Call X)) (g : PGraph X), g.Inv → EInv g → (∀ c ∈ cs, c.Ok ∧ c.EProper) → EInv (g.calls has cs) := by
    intro cs
    induction cs with
    | nil => intro g _ h _; exact h
    | cons c cs ih =>
      intro g hg h hc
      exact ih _ (hg.call has c) (h.call hg has c (hc c (by simp)).1 (hc c (by simp)).2) fun c h => hc c (by simp [h])
  have h0 : EInv (new nodes edges : PGraph X) := by intro l h; simp [PGraph.new] at h
  have := (key cs _ (Inv.new hn he) h0 hc l hl).2 e i y hi hy
  have hv : valE ((new nodes edges).calls has cs) e "edge_color" = x := by
    unfold ep at hx
    unfold valE
    cases hd : Dict.get? ((new nodes edges).calls has cs).edges e with
    | none => simp [hd] at hx
    | some d => rw [hd] at hx; simpa using hx
  rwa [hv] at this

/-- `new_vertex_property('vertex_color')` makes an array with a zero for each vertex, `new_edge_property('edge_color')` one with a row of
zeros for each edge; so the colours of vertices `0, ..., n - 1` and of all edges can then be set. Other names leave the arrays alone. -/
theorem C129_new_arrays (g : PGraph X) (name : String) :
    (g.newVertexProperty "vertex_color").vertexColor = some (List.replicate g.nodes.length PyConsts.zero) ∧
    (g.newVertexProperty "vertex_fill_color").vertexFill = some (List.replicate g.nodes.length PyConsts.zero) ∧
    (g.newEdgeProperty "edge_color").edgeColor = some (List.replicate g.edges.length PyConsts.zeros) ∧
    (name ≠ "vertex_color" → (g.newVertexProperty name).vertexColor = g.vertexColor) ∧
    (name ≠ "vertex_fill_color" → (g.newVertexProperty name).vertexFill = g.vertexFill) ∧
    (name ≠ "edge_color" → (g.newEdgeProperty name).edgeColor = g.edgeColor) ∧
    (g.newVertexProperty name).pos = g.pos ∧ (g.newVertexProperty name).edgeColor = g.edgeColor ∧
    (g.newEdgeProperty name).pos = g.pos ∧ (g.newEdgeProperty name).vertexColor = g.vertexColor ∧
    (g.newEdgeProperty name).vertexFill = g.vertexFill := by
  refine ⟨by simp [newVertexProperty], by simp [newVertexProperty], by simp [newEdgeProperty], fun h => ?_, fun h => ?_, fun h => ?_,
    ?_, ?_, ?_, ?_, ?_⟩
  · simp only [newVertexProperty, h, if_false]; split <;> rfl
  · simp only [newVertexProperty, h, if_false]; split <;> rfl
  · simp [newEdgeProperty, h]
  · simp only [newVertexProperty]; split <;> split <;> rfl
  · simp only [newVertexProperty]; split <;> split <;> rfl
  · simp only [newEdgeProperty]; split <;> rfl
  · simp only [newEdgeProperty]; split <;> rfl
  · simp only [newEdgeProperty]; split <;> rfl

/-- Any edge of a graph can be coloured once `new_edge_property('edge_color')` was called, whatever was called before. -/
theorem C129_edges_colored (has : String → Bool) {g : PGraph X} (hg : g.Inv) {e : Nat × Nat} {y : X}
    (he : g.ep e "edge_color" = .ok y) (x : X) : ((g.newEdgeProperty "edge_color").setEp has e "edge_color" x).2 = none := by
  have hk := newE_keeps g "edge_color"
  obtain ⟨d, hd⟩ := ep_isOk.mp ⟨y, he⟩
  obtain ⟨i, hi⟩ := Option.isSome_iff_exists.mp ((hg.same e).mpr (by simp [hd]))
  have hi' : Dict.get? (g.newEdgeProperty "edge_color").index e = some i := by rw [hk.2.2.1]; exact hi
  have h1 : ∃ y, (g.newEdgeProperty "edge_color").ep e "edge_color" = .ok y := by
    rw [ep_isOk, hk.1, Dict.get?_map g.edges (fun _ d => Dict.set d "edge_color" (PyConsts.none : X)), hd]
    exact ⟨_, rfl⟩
  have h2 := ((C129_set_ep has (g.newEdgeProperty "edge_color") e "edge_color" x).2 h1).2 i hi'
  have h3 : (g.newEdgeProperty "edge_color").arr .edgeColor = some (List.replicate g.edges.length PyConsts.zeros) :=
    (C129_new_arrays g "").2.2.1
  have h4 : arrOf "edge_color" = some .edgeColor := by decide
  rw [h2, h4]
  dsimp only
  rw [h3]
  have := hg.below e i hi
  rw [hg.count] at this
  simp [this]

/-! ## Examples -/

/-- Python values for the examples. -/
inductive PyVal
  | none | num (n : Int) | row (a b c d : Int)
deriving DecidableEq, Repr

instance : PyConsts PyVal := ⟨.none, .num 0, .row 0 0 0 0⟩

/-- Vertices 0 and 1, edges from 0 to 1 and back. -/
def exGraph : PGraph PyVal := new [(0, []), (1, [])] [((0, 1), []), ((1, 0), [])]

/-- Attributes every networkx graph has, two of them. -/
def exHas (name : String) : Bool := name == "name" || name == "degree"

/-- `set_vp(0, 'cap', 4); new_vertex_property('cap'); set_vp(1, 'cap', 5)`, and the same of an edge -/
def exCalls : List (Call PyVal) :=
  [.setVp 0 "cap" (.num 4), .newVertexProperty "cap", .setVp 1 "cap" (.num 5), .setEp (0, 1) "length" (.num 3), .addEdge 1 2 [],
   .freeze, .addEdge 2 0 [("length", .num 9)], .setEp (0, 1) "length" (.num 2)]

example : (∀ c ∈ exCalls, c.Ok) ∧ exGraph.vp 1 "cap" = .ok .none ∧ exGraph.frozen = false ∧
    (exGraph.calls exHas exCalls).vp 0 "cap" = .ok .none ∧ (exGraph.calls exHas exCalls).vp 1 "cap" = .ok (.num 5) ∧
    (exGraph.calls exHas exCalls).ep (0, 1) "length" = .ok (.num 2) ∧ lastE false exCalls (0, 1) "length" = some (.num 2) ∧
    (exGraph.calls exHas exCalls).ep (2, 0) "length" = .error (.py .keyError) ∧
    addedEnds exCalls = [1, 2] ∧ addedEdges exCalls = [(1, 2)] ∧
    (exGraph.calls exHas exCalls).vertexProperties = ["cap"] ∧ (exGraph.calls exHas exCalls).edgeProperties = ["length"] := by
  refine ⟨?_, by decide +kernel⟩
  simp [exCalls, Call.Ok, Dict.Ok]

example : exGraph.Inv := Inv.new (by decide) (by decide)

/-- A call that raises has written: `set_vp(0, 'pos', p)` on a graph without positions, and `set_vp(0, 'degree', 7)`, since
networkx has an attribute of this name. -/
theorem C129_raises_after_writing :
    (exGraph.setVp exHas 0 "pos" (.num 7)).2 = some (.py .typeError) ∧
    (exGraph.setVp exHas 0 "pos" (.num 7)).1.vp 0 "pos" = .ok (.num 7) ∧
    (exGraph.setVp exHas 0 "degree" (.num 7)).2 = some (.py .typeError) ∧
    (exGraph.setVp exHas 0 "degree" (.num 7)).1.vp 0 "degree" = .ok (.num 7) := by decide +kernel

/-- A graph with positions. -/
def exPos : PGraph PyVal := (exGraph.setPos [(0, .num 1), (1, .num 2)]).1

/-- `set_pos({0: 5})` raises, and afterwards vertex 0 has the property 5 but is still drawn at 1. -/
theorem C129_set_pos_half :
    exPos.pos = some [.num 1, .num 2] ∧ (exPos.setPos [(0, .num 5)]).2 = some (.py .keyError) ∧
    (exPos.setPos [(0, .num 5)]).1.vp 0 "pos" = .ok (.num 5) ∧
    (exPos.setPos [(0, .num 5)]).1.pos = some [.num 1, .num 2] := by decide +kernel

/-- `set_ep((1, 0), 'vertex_color', 8)` paints vertex 1, the number of the edge, though the property of the vertex is 3; and
`set_vp(0, 'edge_color', c)` paints edge number 0. -/
theorem C129_wrong_array :
    (exGraph.calls exHas [.newVertexProperty "vertex_color", .setVp 1 "vertex_color" (.num 3),
      .setEp (1, 0) "vertex_color" (.num 8)]).vertexColor = some [.num 0, .num 8] ∧
    (exGraph.calls exHas [.newVertexProperty "vertex_color", .setVp 1 "vertex_color" (.num 3),
      .setEp (1, 0) "vertex_color" (.num 8)]).vp 1 "vertex_color" = .ok (.num 3) ∧
    (exGraph.calls exHas [.newEdgeProperty "edge_color", .setVp 0 "edge_color" (.row 1 1 1 1)]).edgeColor =
      some [.row 1 1 1 1, .row 0 0 0 0] ∧
    (exGraph.calls exHas [.newEdgeProperty "edge_color", .setVp 0 "edge_color" (.row 1 1 1 1)]).ep (0, 1) "edge_color" =
      .ok .none := by decide +kernel

/-- `add_edge(0, 1, edge_color=c)` for an edge that is there changes the property but not the array. -/
theorem C129_add_edge_color :
    (exGraph.calls exHas [.newEdgeProperty "edge_color", .addEdge 0 1 [("edge_color", .row 1 1 1 1)]]).ep (0, 1) "edge_color" =
      .ok (.row 1 1 1 1) ∧
    (exGraph.calls exHas [.newEdgeProperty "edge_color", .addEdge 0 1 [("edge_color", .row 1 1 1 1)]]).edgeColor =
      some [.row 0 0 0 0, .row 0 0 0 0] := by decide +kernel

/-- Calls that paint vertices and edges properly. -/
def exPaint : List (Call PyVal) :=
  [.newVertexProperty "vertex_color", .newEdgeProperty "edge_color", .setVp 1 "vertex_color" (.num 3),
   .setEp (1, 0) "edge_color" (.row 1 2 3 4), .addEdge 1 1 [], .setEp (1, 1) "edge_color" (.row 5 5 5 5)]

example : (∀ c ∈ exPaint, c.Ok ∧ c.VProper) ∧ (∀ c ∈ exPaint, c.Ok ∧ c.EProper) ∧
    (exGraph.calls exHas exPaint).vertexColor = some [.num 0, .num 3] ∧
    (exGraph.calls exHas exPaint).vp 1 "vertex_color" = .ok (.num 3) ∧
    (exGraph.calls exHas exPaint).edgeColor = some [.row 0 0 0 0, .row 1 2 3 4] ∧
    Dict.get? (exGraph.calls exHas exPaint).index (1, 0) = some 1 ∧
    (exGraph.calls exHas exPaint).ep (1, 0) "edge_color" = .ok (.row 1 2 3 4) := by
  refine ⟨?_, ?_, by decide +kernel⟩ <;> simp [exPaint, Call.Ok, Call.VProper, Call.EProper, Dict.Ok, Dict.get?]

end PGraph
end Verif
