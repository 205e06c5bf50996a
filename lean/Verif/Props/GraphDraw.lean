import Verif.GraphDraw
import Verif.Props.GraphGen

/-! # Properties of drawings: C89, C90, C91 -/

namespace Verif

namespace DrawSpec

open GSpec

variable {A P C : Type*}

/-! ## Specification -/

/-- The vertices of the graph are `0, ..., n - 1`, in some order, and every edge ends in one of them. -/
def Vertices (g : QGraph A) (n : Nat) : Prop :=
  (∀ v, v ∈ Dict.keys g.adj ↔ v < n) ∧ ∀ e ∈ g.adj.edges, e.2 ∈ Dict.keys g.adj

/-- The graphs made by the constructor and the methods that write what is drawn. `zero` is the row of zeros; edges are
added between vertices that are there and before there are colours. -/
inductive Made [EmptyCollection A] (zero : C) : Canvas A P C → Prop
  | new {g : QGraph A} {vpos : Dict Nat P} : Built g → Dict.Ok vpos → (∀ v ∈ Dict.keys vpos, v ∈ Dict.keys g.adj) →
      Made zero (Canvas.new g vpos)
  | setPos {c c' : Canvas A P C} {d : Dict Nat P} : Made zero c → Dict.Ok d → c.setPos d = .ok c' → Made zero c'
  | setVpPos {c c' : Canvas A P C} (v : Nat) (p : P) : Made zero c → c.setVpPos v p = .ok c' → Made zero c'
  | addEdge {c : Canvas A P C} (u v : Nat) : Made zero c → u ∈ Dict.keys c.g.adj → v ∈ Dict.keys c.g.adj → c.ecol = none →
      Made zero (c.addEdge u v)
  | setType {c c' : Canvas A P C} (e : Nat × Nat) (t : Int) : Made zero c → c.setType e t = .ok c' → Made zero c'
  | newEdgeColor {c : Canvas A P C} : Made zero c → Made zero (c.newEdgeColor zero)
  | setEdgeColor {c c' : Canvas A P C} (e : Nat × Nat) (x : C) : Made zero c → c.setEdgeColor e x = .ok c' → Made zero c'
  | newVertexFill {c : Canvas A P C} : Made zero c → Made zero (c.newVertexFill zero)
  | setVertexFill {c c' : Canvas A P C} (v : Nat) (x : C) : Made zero c → c.setVertexFill v x = .ok c' → Made zero c'

/-- The picture shows the graph: point `v` is vertex `v`, line number `i` is edge number `i` and joins the points of its
ends, there are no other points and lines; every line and every point has the colour its edge or vertex was given
last. -/
structure Shows (zero : C) (c : Canvas A P C) (n : Nat) (pic : Picture P C) : Prop where
  points : pic.points.length = n
  lines : pic.segments.length = c.g.adj.edges.length
  ends : ∀ e ∈ c.g.adj.edges, ∃ i a b, Dict.get? c.g.index e = some i ∧ pic.points[e.1]? = some a ∧
    pic.points[e.2]? = some b ∧ pic.segments[i]? = some (some (a, b))
  only : ∀ i < pic.segments.length, ∃ e ∈ c.g.adj.edges, Dict.get? c.g.index e = some i
  once : ∀ e e' i, Dict.get? c.g.index e = some i → Dict.get? c.g.index e' = some i → e = e'
  lineCols : ∀ l, pic.lineCols = some l → ∀ e i, Dict.get? c.g.index e = some i →
    l[i]? = some ((Dict.get? c.ecolA e).getD zero)
  pointCols : ∀ l, pic.pointCols = some l → ∀ v < n, l[v]? = some ((Dict.get? c.vfillA v).getD zero)

end DrawSpec

/-! ## Lemmas -/

section

open DrawSpec GSpec GenSpec Canvas

variable {A P C : Type*}

theorem lookAll_iff {pos : Dict Nat P} {vs : List Nat} : ∀ {l : List P},
    lookAll pos vs = some l ↔ vs.map (Dict.get? pos) = l.map some := by
  induction vs with
  | nil =>
    intro l
    simp only [lookAll, List.map_nil, Option.some.injEq]
    constructor
    · rintro rfl; rfl
    · intro h; simpa using h.symm
  | cons v vs ih =>
    intro l
    simp only [lookAll, List.map_cons]
    cases hg : Dict.get? pos v with
    | none =>
      simp only [reduceCtorEq, false_iff]
      intro h
      cases l with
      | nil => simp at h
      | cons a l => simp at h
    | some p =>
      cases l with
      | nil => simp
      | cons a l =>
        simp only [Option.map_eq_some_iff, List.cons.injEq, List.map_cons, Option.some.injEq]
        rw [← ih]
        constructor
        · rintro ⟨l', h, rfl, rfl⟩; exact ⟨rfl, h⟩
        · rintro ⟨rfl, h⟩; exact ⟨l, h, rfl, rfl⟩

theorem lookAll_isSome {pos : Dict Nat P} {vs : List Nat} : (lookAll pos vs).isSome ↔ ∀ v ∈ vs, v ∈ Dict.keys pos := by
  induction vs with
  | nil => simp [lookAll]
  | cons v vs ih =>
    simp only [lookAll]
    cases hg : Dict.get? pos v with
    | none =>
      have := Dict.get?_eq_none.mp hg
      simp [this]
    | some p =>
      have : v ∈ Dict.keys pos := Dict.get?_isSome.mp (by rw [hg]; rfl)
      simp [this, ih]

theorem lookAll_length {pos : Dict Nat P} {vs : List Nat} {l : List P} (h : lookAll pos vs = some l) :
    l.length = vs.length := by
  have := congrArg List.length (lookAll_iff.mp h)
  simpa using this.symm

theorem lookAll_get {pos : Dict Nat P} {vs : List Nat} {l : List P} (h : lookAll pos vs = some l) {i v : Nat}
    (hv : vs[i]? = some v) : l[i]? = Dict.get? pos v := by
  have h1 := congrArg (fun l => l[i]?) (lookAll_iff.mp h)
  simp only [List.getElem?_map, hv, Option.map_some] at h1
  cases h2 : l[i]? with
  | none => rw [h2] at h1; simp at h1
  | some p => rw [h2] at h1; simpa using h1.symm

theorem fillSegments_spec {index : Dict (Nat × Nat) Nat} {pos : List P} {N : Nat}
    (hinj : ∀ e e' k, Dict.get? index e = some k → Dict.get? index e' = some k → e = e') :
    ∀ (es : List (Nat × Nat)) (l : List (Option (P × P))), l.length = N → es.Nodup →
    (∀ e ∈ es, (∃ i, Dict.get? index e = some i ∧ i < N) ∧ e.1 < pos.length ∧ e.2 < pos.length) →
    ∃ l', fillSegments index pos es l = .ok l' ∧ l'.length = N ∧
      (∀ e ∈ es, ∃ i a b, Dict.get? index e = some i ∧ pos[e.1]? = some a ∧ pos[e.2]? = some b ∧ l'[i]? = some (some (a, b))) ∧
      ∀ i, (∀ e ∈ es, Dict.get? index e ≠ some i) → l'[i]? = l[i]? := by
  intro es
  induction es with
  | nil => intro l hl _ _; exact ⟨l, rfl, hl, by simp, fun _ _ => rfl⟩
  | cons e es ih =>
    intro l hl hn he
    obtain ⟨⟨i, hi, hiN⟩, h1, h2⟩ := he e (by simp)
    obtain ⟨hne, hn⟩ := List.nodup_cons.mp hn
    obtain ⟨l', a1, a2, a3, a4⟩ := ih (l.set i (some (pos[e.1], pos[e.2]))) (by simpa using hl) hn
      (fun e' he' => he e' (List.mem_cons_of_mem _ he'))
    refine ⟨l', ?_, a2, ?_, ?_⟩
    · simp only [fillSegments, hi, List.getElem?_eq_getElem h1, List.getElem?_eq_getElem h2]
      rw [if_pos (by omega)]; exact a1
    · intro e' he'
      rcases List.mem_cons.mp he' with rfl | he'
      · refine ⟨i, _, _, hi, List.getElem?_eq_getElem h1, List.getElem?_eq_getElem h2, ?_⟩
        rw [a4 i (fun e'' h'' h3 => hne (hinj _ _ _ hi h3 ▸ h'')), List.getElem?_set_self (by omega)]
      · exact a3 e' he'
    · intro j hj
      rw [a4 j (fun e' he' => hj e' (List.mem_cons_of_mem _ he'))]
      have : i ≠ j := fun h => hj e (by simp) (h ▸ hi)
      rw [List.getElem?_set_ne this]

theorem keys_addNode_mem {g : Adj A} {v : Nat} (hv : v ∈ Dict.keys g) : Adj.addNode g v = g := by
  unfold Adj.addNode
  obtain ⟨d, hd⟩ := Option.isSome_iff_exists.mp (Dict.get?_isSome.mpr hv)
  rw [hd]

theorem keys_addEdge_mem {g : Adj A} {u v : Nat} (hu : u ∈ Dict.keys g) (hv : v ∈ Dict.keys g) (x : EAttr A) :
    Dict.keys (g.addEdge u v x) = Dict.keys g := by
  unfold Adj.addEdge
  simp only [keys_addNode_mem hu, keys_addNode_mem hv]
  split
  · rw [Dict.keys_set, if_pos hu]
  · rfl

theorem keys_qaddEdge [EmptyCollection A] {g : QGraph A} {u v : Nat} (hu : u ∈ Dict.keys g.adj) (hv : v ∈ Dict.keys g.adj) :
    Dict.keys (g.addEdge u v).adj = Dict.keys g.adj := by
  have : (g.addEdge u v).adj = if (g.adj.look u v).isSome then g.adj else g.adj.addEdge u v ⟨none, ∅⟩ := by
    unfold QGraph.addEdge; simp only; split <;> rfl
  rw [this]
  split
  · rfl
  · exact keys_addEdge_mem hu hv _

theorem setEp_keys {g g' : QGraph A} {e : Nat × Nat} {t : Int} (h : g.setEp e t = some g') :
    Dict.keys g'.adj = Dict.keys g.adj ∧ g'.index = g.index := by
  unfold QGraph.setEp Adj.setType at h
  cases h1 : Dict.get? g.adj e.1 with
  | none => rw [h1] at h; cases h
  | some d =>
    rw [h1] at h
    simp only at h
    cases h2 : Dict.get? d e.2 with
    | none => rw [h2] at h; cases h
    | some x =>
      rw [h2] at h
      simp only [Option.some.injEq] at h
      subst h
      refine ⟨?_, rfl⟩
      rw [Dict.keys_set, if_pos (Dict.get?_isSome.mp (by rw [h1]; rfl))]

theorem setEp_edges [EmptyCollection A] {g g' : QGraph A} (hg : Built g) {e : Nat × Nat} {t : Int} (h : g.setEp e t = some g') :
    (∀ e', e' ∈ g'.adj.edges ↔ e' ∈ g.adj.edges) ∧ g'.adj.edges.length = g.adj.edges.length := by
  have n1 := Numbered.of_built hg
  have n2 := Numbered.of_built (.ep e t hg h)
  have hi := (setEp_keys h).2
  have hE : g'.nE = g.nE := by
    unfold QGraph.setEp at h
    split at h
    · cases h
    · cases h; rfl
  refine ⟨fun e' => ?_, ?_⟩
  · rw [← n1.edges, ← n2.edges, hi]
  · rw [← n1.count, ← n2.count, hE]

theorem get?_setAttrs {V : Type*} {nodes : List Nat} {d : Dict Nat V} : ∀ {old : Dict Nat V}, Dict.Ok d → ∀ {v : Nat}, v ∈ nodes →
    Dict.get? (setAttrs nodes old d) v = (Dict.get? d v).or (Dict.get? old v) := by
  induction d with
  | nil => intro old _ v _; simp [setAttrs, Dict.get?]
  | cons q d ih =>
    intro old hd v hv
    have hd' := List.nodup_cons.mp hd
    have h0 : setAttrs nodes old (q :: d) = setAttrs nodes (if q.1 ∈ nodes then Dict.set old q.1 q.2 else old) d := rfl
    rw [h0, ih hd'.2 hv]
    obtain ⟨k, x⟩ := q
    simp only [Dict.get?]
    by_cases hk : k = v
    · subst hk
      have : Dict.get? d k = none := Dict.get?_eq_none.mpr hd'.1
      rw [this, if_pos hv, if_pos rfl, Dict.get?_set, if_pos rfl]
      rfl
    · rw [if_neg hk]
      congr 1
      split
      · rw [Dict.get?_set, if_neg (fun h => hk h.symm)]
      · rfl

/-- Invariant of the canvases made by the methods. -/
structure Inv [EmptyCollection A] (zero : C) (c : Canvas A P C) : Prop where
  built : Built c.g
  len : ∀ l, c.pos = some l → l.length = c.g.adj.length
  ecol : ∀ l, c.ecol = some l → l.length = c.g.adj.edges.length ∧
    ∀ e i, Dict.get? c.g.index e = some i → l[i]? = some ((Dict.get? c.ecolA e).getD zero)
  vfill : ∀ l, c.vfill = some l → l.length = c.g.adj.length ∧
    ∀ v < c.g.adj.length, l[v]? = some ((Dict.get? c.vfillA v).getD zero)
  place : Dict.keys c.g.adj = List.range c.g.adj.length → ∀ l, c.pos = some l → ∀ v < c.g.adj.length,
    l[v]? = Dict.get? c.vpos v

theorem keys_length {K V : Type*} (d : Dict K V) : (Dict.keys d).length = d.length := by simp [Dict.keys]

theorem Inv.of_made [EmptyCollection A] {zero : C} {c : Canvas A P C} (h : Made zero c) : Inv zero c := by
  induction h with
  | @new g vpos hg hv hk =>
    refine ⟨hg, ?_, ?_, ?_, ?_⟩
    · intro l hl
      simp only [Canvas.new] at hl
      split at hl
      · rw [lookAll_length hl, keys_length]; rfl
      · cases hl
    · intro l hl; cases hl
    · intro l hl; cases hl
    · intro hr l hl v hv'
      simp only [Canvas.new] at hl hr hv' ⊢
      split at hl
      · exact lookAll_get hl (by rw [hr, List.getElem?_range hv'])
      · cases hl
  | @setPos c c' d _ hd hs ih =>
    unfold Canvas.setPos at hs
    split at hs
    · cases hs
    · rename_i l hl
      cases hs
      refine ⟨ih.built, ?_, ih.ecol, ih.vfill, ?_⟩
      · rintro l' ⟨⟩; rw [lookAll_length hl, keys_length]
      · rintro hr l' ⟨⟩ v hv
        have hv' : v ∈ Dict.keys c.g.adj := by rw [hr]; exact List.mem_range.mpr hv
        have hv'' : v ∈ Dict.keys d := lookAll_isSome.mp (by rw [hl]; rfl) v hv'
        show l[v]? = Dict.get? (setAttrs _ _ _) v
        rw [get?_setAttrs hd hv']
        obtain ⟨p, hp⟩ := Option.isSome_iff_exists.mp (Dict.get?_isSome.mpr hv'')
        rw [hp, lookAll_get hl (by rw [hr, List.getElem?_range hv]), hp]; rfl
  | @setVpPos c c' v p _ hs ih =>
    unfold Canvas.setVpPos at hs
    split at hs
    · split at hs
      · cases hs
      · rename_i l hl
        split at hs
        · rename_i hlt
          cases hs
          refine ⟨ih.built, ?_, ih.ecol, ih.vfill, ?_⟩
          · rintro l' ⟨⟩; rw [List.length_set]; exact ih.len l hl
          · rintro hr l' ⟨⟩ w hw
            show (l.set v p)[w]? = Dict.get? (Dict.set c.vpos v p) w
            rw [Dict.get?_set]
            by_cases h : w = v
            · subst h; rw [List.getElem?_set_self hlt, if_pos rfl]
            · rw [List.getElem?_set_ne (fun h' => h h'.symm), if_neg h]; exact ih.place hr l hl w hw
        · cases hs
    · cases hs
  | @addEdge c u v _ hu hv hc ih =>
    have hk := keys_qaddEdge hu hv
    have hlen : (c.g.addEdge u v).adj.length = c.g.adj.length := by rw [← keys_length, hk, keys_length]
    refine ⟨.add u v ih.built, ?_, ?_, ?_, ?_⟩
    · intro l hl; exact (ih.len l hl).trans hlen.symm
    · intro l hl
      exact absurd (hc.symm.trans hl) (by simp)
    · intro l hl
      obtain ⟨a, b⟩ := ih.vfill l hl
      exact ⟨a.trans hlen.symm, fun w hw => b w (hlen ▸ hw)⟩
    · intro hr l hl w hw
      refine ih.place ?_ l hl w (hlen ▸ hw)
      rw [← hk, ← hlen]; exact hr
  | @setType c c' e t _ hs ih =>
    unfold Canvas.setType at hs
    split at hs
    · cases hs
    · rename_i g' hg'
      cases hs
      obtain ⟨hk, hi⟩ := setEp_keys hg'
      obtain ⟨-, hE⟩ := setEp_edges ih.built hg'
      have hlen : g'.adj.length = c.g.adj.length := by rw [← keys_length, hk, keys_length]
      refine ⟨.ep e t ih.built hg', ?_, ?_, ?_, ?_⟩
      · intro l hl; exact (ih.len l hl).trans hlen.symm
      · intro l hl
        obtain ⟨a, b⟩ := ih.ecol l hl
        exact ⟨a.trans hE.symm, fun e' i he' => b e' i (hi ▸ he')⟩
      · intro l hl
        obtain ⟨a, b⟩ := ih.vfill l hl
        exact ⟨a.trans hlen.symm, fun w hw => b w (hlen ▸ hw)⟩
      · intro hr l hl w hw
        refine ih.place ?_ l hl w (hlen ▸ hw)
        rw [← hk, ← hlen]; exact hr
  | @newEdgeColor c _ ih =>
    refine ⟨ih.built, ih.len, ?_, ih.vfill, ih.place⟩
    rintro l ⟨⟩
    refine ⟨by simp [Canvas.newEdgeColor], fun e i he => ?_⟩
    have : i < c.g.adj.edges.length := (C57_edge_index ih.built).2.1 e i he
    simp [Canvas.newEdgeColor, Dict.get?, this]
  | @setEdgeColor c c' e x _ hs ih =>
    unfold Canvas.setEdgeColor at hs
    split at hs
    · cases hs
    · split at hs
      · cases hs
      · rename_i i hi
        split at hs
        · cases hs
        · rename_i l hl
          split at hs
          · rename_i hlt
            cases hs
            refine ⟨ih.built, ih.len, ?_, ih.vfill, ih.place⟩
            rintro l' ⟨⟩
            obtain ⟨a, b⟩ := ih.ecol l hl
            refine ⟨by rw [List.length_set]; exact a, fun e' j he' => ?_⟩
            show (l.set i x)[j]? = some ((Dict.get? (Dict.set c.ecolA e x) e').getD zero)
            rw [Dict.get?_set]
            by_cases h : e' = e
            · subst h
              obtain rfl : i = j := Option.some.inj (hi.symm.trans he')
              rw [List.getElem?_set_self hlt, if_pos rfl]; rfl
            · have hij : i ≠ j := by
                rintro rfl; exact h ((C57_edge_index ih.built).2.2.1 _ _ _ he' hi)
              rw [List.getElem?_set_ne hij, if_neg h]; exact b e' j he'
          · cases hs
  | @newVertexFill c _ ih =>
    refine ⟨ih.built, ih.len, ih.ecol, ?_, ih.place⟩
    rintro l ⟨⟩
    refine ⟨by simp [Canvas.newVertexFill], fun v hv => ?_⟩
    have : v < c.g.adj.length := hv
    simp [Canvas.newVertexFill, Dict.get?, this]
  | @setVertexFill c c' v x _ hs ih =>
    unfold Canvas.setVertexFill at hs
    split at hs
    · split at hs
      · cases hs
      · rename_i l hl
        split at hs
        · rename_i hlt
          cases hs
          refine ⟨ih.built, ih.len, ih.ecol, ?_, ih.place⟩
          rintro l' ⟨⟩
          obtain ⟨a, b⟩ := ih.vfill l hl
          refine ⟨by rw [List.length_set]; exact a, fun w hw => ?_⟩
          show (l.set v x)[w]? = some ((Dict.get? (Dict.set c.vfillA v x) w).getD zero)
          rw [Dict.get?_set]
          by_cases h : w = v
          · subst h; rw [List.getElem?_set_self hlt, if_pos rfl]; rfl
          · rw [List.getElem?_set_ne (fun h' => h h'.symm), if_neg h]; exact b w hw
        · cases hs
    · cases hs

theorem vertices_length [EmptyCollection A] {g : QGraph A} (hg : Built g) {n : Nat} (hv : Vertices g n) : g.adj.length = n := by
  have hd : (Dict.keys g.adj).Nodup := (Numbered.of_built hg).ok.1
  have : (Dict.keys g.adj).Perm (List.range n) :=
    (List.perm_ext_iff_of_nodup hd List.nodup_range).mpr fun v => by rw [hv.1 v, List.mem_range]
  rw [← keys_length, this.length_eq, List.length_range]

theorem mem_edges_src {g : Adj A} {e : Nat × Nat} (h : e ∈ g.edges) : e.1 ∈ Dict.keys g := by
  obtain ⟨p, hp, hq⟩ := List.mem_flatMap.mp h
  obtain ⟨q, -, rfl⟩ := List.mem_map.mp hq
  exact List.mem_map.mpr ⟨p, hp, rfl⟩

/-- With positions set, drawing works and shows the graph. -/
theorem draw_shows [EmptyCollection A] {zero : C} {c : Canvas A P C} (hi : Inv zero c) {n : Nat} (hv : Vertices c.g n) {l : List P}
    (hl : c.pos = some l) : ∃ segs, fillSegments c.g.index l c.g.adj.edges (List.replicate c.g.adj.edges.length none) = .ok segs ∧
      Shows zero c n ⟨segs, c.ecol, l, c.vfill⟩ := by
  have hn := vertices_length hi.built hv
  have hll := (hi.len l hl).trans hn
  obtain ⟨i1, i2, i3, i4⟩ := C57_edge_index hi.built
  obtain ⟨segs, a1, a2, a3, -⟩ := fillSegments_spec (pos := l) i3 c.g.adj.edges
    (List.replicate c.g.adj.edges.length none) (N := c.g.adj.edges.length) (by simp)
    (Adj.edges_nodup (Numbered.of_built hi.built).ok) (fun e he => by
      obtain ⟨k, hk⟩ := (i1 e).mpr he
      exact ⟨⟨k, hk, i2 e k hk⟩, hll ▸ (hv.1 _).mp (mem_edges_src he), hll ▸ (hv.1 _).mp (hv.2 e he)⟩)
  refine ⟨segs, a1, hll, a2, a3, ?_, i3, ?_, ?_⟩
  · intro i hi'
    obtain ⟨e, he⟩ := i4 i (a2 ▸ hi')
    exact ⟨e, (i1 e).mp ⟨i, he⟩, he⟩
  · intro k hk e i he
    exact (hi.ecol k hk).2 e i he
  · intro k hk v hv'
    exact (hi.vfill k hk).2 v (hn ▸ hv')

theorem setPos_same {c c' : Canvas A P C} {d : Dict Nat P} (h : c.setPos d = .ok c') :
    c'.g = c.g ∧ c'.ecolA = c.ecolA ∧ c'.ecol = c.ecol ∧ c'.vfillA = c.vfillA ∧ c'.vfill = c.vfill ∧
      ∃ l, c'.pos = some l ∧ lookAll d (Dict.keys c.g.adj) = some l := by
  unfold Canvas.setPos at h
  split at h
  · cases h
  · rename_i l hl
    cases h
    exact ⟨rfl, rfl, rfl, rfl, rfl, l, rfl, hl⟩

/-! ## C89 -/

/-- The graph that is drawn: positions set if they were given or missing. -/
theorem draw_spec [EmptyCollection A] {zero : C} {c : Canvas A P C} (hm : Made zero c) {n : Nat} (hv : Vertices c.g n)
    (arg : Option (Dict Nat P)) (ha : ∀ d, arg = some d → Dict.Ok d) {spring : Dict Nat P} (hs : Dict.Ok spring)
    (hsp : ∀ v < n, v ∈ Dict.keys spring) :
    (∃ c' pic, c.draw arg spring = .ok (c', pic)) ∨ ∃ d v, arg = some d ∧ v < n ∧ v ∉ Dict.keys d ∧ c.draw arg spring = .error .keyError := by
  have main : ∀ {c1 : Canvas A P C}, Made zero c1 → c1.g = c.g → ∀ {l}, c1.pos = some l →
      ∃ segs, fillSegments c1.g.index l c1.g.adj.edges (List.replicate c1.g.adj.edges.length none) = .ok segs := by
    intro c1 h1 hg l hl
    obtain ⟨segs, h, -⟩ := draw_shows (Inv.of_made h1) (hg ▸ hv : Vertices c1.g n) hl
    exact ⟨segs, h⟩
  cases arg with
  | some d =>
    by_cases hcov : ∀ v < n, v ∈ Dict.keys d
    · left
      obtain ⟨l, hl⟩ := Option.isSome_iff_exists.mp (lookAll_isSome.mpr fun v hv' => hcov v ((hv.1 v).mp hv'))
      have hsp' : c.setPos d = .ok { c with vpos := setAttrs (Dict.keys c.g.adj) c.vpos d, pos := some l } := by
        unfold Canvas.setPos; rw [hl]
      obtain ⟨segs, h⟩ := main (.setPos hm (ha d rfl) hsp') rfl rfl
      refine ⟨{ c with vpos := setAttrs (Dict.keys c.g.adj) c.vpos d, pos := some l }, ⟨segs, c.ecol, l, c.vfill⟩, ?_⟩
      simp only [Canvas.draw, hsp']
      simp only at h
      rw [h]
    · right
      push Not at hcov
      obtain ⟨v, hvn, hvd⟩ := hcov
      refine ⟨d, v, rfl, hvn, hvd, ?_⟩
      have : lookAll d (Dict.keys c.g.adj) = none := by
        cases h : lookAll d (Dict.keys c.g.adj) with
        | none => rfl
        | some l => exact absurd (lookAll_isSome.mp (by rw [h]; rfl) v ((hv.1 v).mpr hvn)) hvd
      simp [Canvas.draw, Canvas.setPos, this]
  | none =>
    left
    cases hp : c.pos with
    | some l =>
      obtain ⟨segs, h⟩ := main hm rfl hp
      refine ⟨c, ⟨segs, c.ecol, l, c.vfill⟩, ?_⟩
      simp only [Canvas.draw, hp]
      rw [h]
    | none =>
      obtain ⟨l, hl⟩ := Option.isSome_iff_exists.mp (lookAll_isSome.mpr fun v hv' => hsp v ((hv.1 v).mp hv'))
      have hsp' : c.setPos spring = .ok { c with vpos := setAttrs (Dict.keys c.g.adj) c.vpos spring, pos := some l } := by
        unfold Canvas.setPos; rw [hl]
      obtain ⟨segs, h⟩ := main (.setPos hm hs hsp') rfl rfl
      refine ⟨{ c with vpos := setAttrs (Dict.keys c.g.adj) c.vpos spring, pos := some l }, ⟨segs, c.ecol, l, c.vfill⟩, ?_⟩
      simp only [Canvas.draw, hp, hsp']
      simp only at h
      rw [h]

/-- What a successful call of `draw` did. -/
theorem draw_ok {c c' : Canvas A P C} {arg : Option (Dict Nat P)} {spring : Dict Nat P} {pic : Picture P C}
    (h : c.draw arg spring = .ok (c', pic)) :
    ((arg = none ∧ c' = c) ∨ (∃ d, (arg = some d ∨ (arg = none ∧ c.pos = none ∧ d = spring)) ∧ c.setPos d = .ok c')) ∧
      ∃ l segs, c'.pos = some l ∧
        fillSegments c'.g.index l c'.g.adj.edges (List.replicate c'.g.adj.edges.length none) = .ok segs ∧
        pic = ⟨segs, c'.ecol, l, c'.vfill⟩ := by
  have main : ∀ {c1 : Canvas A P C}, (match c1.pos with
    | none => (.error .typeError : Except Err (Canvas A P C × Picture P C))
    | some l =>
      match fillSegments c1.g.index l c1.g.adj.edges (List.replicate c1.g.adj.edges.length none) with
      | .error e => .error e
      | .ok segs => .ok (c1, ⟨segs, c1.ecol, l, c1.vfill⟩)) = .ok (c', pic) → c1 = c' ∧ ∃ l segs, c'.pos = some l ∧
        fillSegments c'.g.index l c'.g.adj.edges (List.replicate c'.g.adj.edges.length none) = .ok segs ∧
        pic = ⟨segs, c'.ecol, l, c'.vfill⟩ := by
    intro c1 h
    split at h
    · cases h
    · rename_i l hl
      split at h
      · cases h
      · rename_i segs hs
        cases h
        exact ⟨rfl, l, segs, hl, hs, rfl⟩
  unfold Canvas.draw at h
  simp only at h
  cases arg with
  | some d =>
    simp only at h
    split at h
    · cases h
    · rename_i c1 h1
      obtain ⟨rfl, h2⟩ := main h
      exact ⟨.inr ⟨d, .inl rfl, h1⟩, h2⟩
  | none =>
    simp only at h
    cases hp : c.pos with
    | some l =>
      rw [hp] at h
      simp only at h
      obtain ⟨rfl, h2⟩ := main (c1 := c) (by rw [hp]; exact h)
      exact ⟨.inl ⟨rfl, rfl⟩, h2⟩
    | none =>
      rw [hp] at h
      simp only at h
      split at h
      · cases h
      · rename_i c1 h1
        obtain ⟨rfl, h2⟩ := main h
        exact ⟨.inr ⟨spring, .inr ⟨rfl, rfl, rfl⟩, h1⟩, h2⟩

/-- C89. Every drawing shows the graph: point `v` is vertex `v`, line `i` is edge number `i`, it joins the points of its
ends, nothing else is drawn, and each line and point has the colour its edge or vertex was given last. Drawing changes
neither graph nor colours. -/
theorem C89_drawing [EmptyCollection A] {zero : C} {c c' : Canvas A P C} (hm : Made zero c) {n : Nat} (hv : Vertices c.g n)
    {arg : Option (Dict Nat P)} (ha : ∀ d, arg = some d → Dict.Ok d) {spring : Dict Nat P} (hs : Dict.Ok spring)
    {pic : Picture P C} (h : c.draw arg spring = .ok (c', pic)) :
    Shows zero c n pic ∧ c'.g = c.g ∧ c'.ecolA = c.ecolA ∧ c'.vfillA = c.vfillA := by
  obtain ⟨h1, l, segs, hl, hseg, rfl⟩ := draw_ok h
  have key : Made zero c' ∧ c'.g = c.g ∧ c'.ecolA = c.ecolA ∧ c'.vfillA = c.vfillA := by
    rcases h1 with ⟨-, rfl⟩ | ⟨d, hd, hset⟩
    · exact ⟨hm, rfl, rfl, rfl⟩
    · obtain ⟨a, b, -, d', -⟩ := setPos_same hset
      refine ⟨.setPos hm ?_ hset, a, b, d'⟩
      rcases hd with rfl | ⟨-, -, rfl⟩
      · exact ha d rfl
      · exact hs
  obtain ⟨hm', a, b, d'⟩ := key
  obtain ⟨segs', e1, e2⟩ := draw_shows (Inv.of_made hm') (a ▸ hv : Vertices c'.g n) hl
  obtain rfl : segs' = segs := Except.ok.inj (e1.symm.trans hseg)
  refine ⟨?_, a, b, d'⟩
  obtain ⟨f1, f2, f3, f4, f5, f6, f7⟩ := e2
  rw [a] at f2 f3 f4 f5 f6
  rw [b] at f6
  rw [d'] at f7
  exact ⟨f1, f2, f3, f4, f5, f6, f7⟩

/-- C89. Drawing works unless positions are passed and one is missing. -/
theorem C89_when [EmptyCollection A] {zero : C} {c : Canvas A P C} (hm : Made zero c) {n : Nat} (hv : Vertices c.g n)
    {arg : Option (Dict Nat P)} (ha : ∀ d, arg = some d → Dict.Ok d) {spring : Dict Nat P} (hs : Dict.Ok spring)
    (hsp : ∀ v < n, v ∈ Dict.keys spring) :
    (∃ c' pic, c.draw arg spring = .ok (c', pic)) ↔ ∀ d, arg = some d → ∀ v < n, v ∈ Dict.keys d := by
  constructor
  · rintro ⟨c', pic, h⟩ d rfl v hvn
    obtain ⟨h1, -⟩ := draw_ok h
    rcases h1 with ⟨h0, -⟩ | ⟨d', hd, hset⟩
    · cases h0
    · rcases hd with hd | ⟨h0, -⟩
      · cases hd
        obtain ⟨-, -, -, -, -, l, -, hl⟩ := setPos_same hset
        exact lookAll_isSome.mp (by rw [hl]; rfl) v ((hv.1 v).mpr hvn)
      · cases h0
  · intro hc
    rcases draw_spec hm hv arg ha hs hsp with h | ⟨d, v, rfl, hvn, hvd, -⟩
    · exact h
    · exact absurd (hc d rfl v hvn) hvd

/-- C89. After `set_ep(e, 'edge_color', x)` the line of `e` has colour `x`, and the others have the colour they had. -/
theorem C89_edge_colour [EmptyCollection A] {zero : C} {c c1 c' : Canvas A P C} (hm : Made zero c)
    {e : Nat × Nat} {x : C} (h1 : c.setEdgeColor e x = .ok c1) {arg : Option (Dict Nat P)}
    {spring : Dict Nat P} {pic : Picture P C} (h : c1.draw arg spring = .ok (c', pic)) :
    ∃ l l0 i, pic.lineCols = some l ∧ c.ecol = some l0 ∧ Dict.get? c.g.index e = some i ∧ l[i]? = some x ∧
      ∀ e' j, e' ≠ e → Dict.get? c.g.index e' = some j → l[j]? = l0[j]? := by
  have hcol : ∃ l0 i, c.ecol = some l0 ∧ Dict.get? c.g.index e = some i ∧ c1.g = c.g ∧ c1.ecol = some (l0.set i x) ∧
      i < l0.length := by
    unfold Canvas.setEdgeColor at h1
    split at h1
    · cases h1
    · split at h1
      · cases h1
      · rename_i i hi
        split at h1
        · cases h1
        · rename_i l0 hl0
          split at h1
          · rename_i hlt
            cases h1
            exact ⟨l0, i, hl0, hi, rfl, rfl, hlt⟩
          · cases h1
  obtain ⟨l0, i, hl0, hi, hg1, hc1, hlt⟩ := hcol
  obtain ⟨hd, l, segs, -, -, rfl⟩ := draw_ok h
  have hcol' : c'.ecol = c1.ecol := by
    rcases hd with ⟨-, rfl⟩ | ⟨d, -, hset⟩
    · rfl
    · exact (setPos_same hset).2.2.1
  refine ⟨l0.set i x, l0, i, hcol'.trans hc1, hl0, hi, List.getElem?_set_self hlt, fun e' j he' hj => ?_⟩
  have : i ≠ j := by rintro rfl; exact he' ((C57_edge_index (Inv.of_made hm).built).2.2.1 _ _ _ hj hi)
  rw [List.getElem?_set_ne this]

/-- C89. After `set_vp(v, 'vertex_fill_color', x)` point `v` has colour `x`, and the others have the colour they had. -/
theorem C89_vertex_colour {c c1 c' : Canvas A P C} {v : Nat} {x : C}
    (h1 : c.setVertexFill v x = .ok c1) {arg : Option (Dict Nat P)} {spring : Dict Nat P} {pic : Picture P C}
    (h : c1.draw arg spring = .ok (c', pic)) :
    ∃ l l0, pic.pointCols = some l ∧ c.vfill = some l0 ∧ l[v]? = some x ∧ ∀ w, w ≠ v → l[w]? = l0[w]? := by
  have hcol : ∃ l0, c.vfill = some l0 ∧ c1.vfill = some (l0.set v x) ∧ v < l0.length := by
    unfold Canvas.setVertexFill at h1
    split at h1
    · split at h1
      · cases h1
      · rename_i l0 hl0
        split at h1
        · rename_i hlt
          cases h1
          exact ⟨l0, hl0, rfl, hlt⟩
        · cases h1
    · cases h1
  obtain ⟨l0, hl0, hc1, hlt⟩ := hcol
  obtain ⟨hd, l, segs, -, -, rfl⟩ := draw_ok h
  have hcol' : c'.vfill = c1.vfill := by
    rcases hd with ⟨-, rfl⟩ | ⟨d, -, hset⟩
    · rfl
    · exact (setPos_same hset).2.2.2.2.1
  refine ⟨l0.set v x, l0, hcol'.trans hc1, hl0, List.getElem?_set_self hlt, fun w hw => ?_⟩
  rw [List.getElem?_set_ne (fun h => hw h.symm)]

/-- The graph of the dict `{1: [2], 2: [0], 0: [1]}`, with nodes in the order 1, 2, 0. -/
def triGraph : QGraph Unit :=
  .ofAdj [(1, [(2, ⟨some 1, ()⟩)]), (2, [(0, ⟨some 1, ()⟩)]), (0, [(1, ⟨some 1, ()⟩)])]

theorem triGraph_built : Built triGraph := .new ⟨by decide, by decide⟩

theorem triGraph_vertices : Vertices triGraph 3 := by
  refine ⟨fun v => ?_, by decide⟩
  have : Dict.keys triGraph.adj = [1, 2, 0] := rfl
  rw [this]
  simp only [List.mem_cons, List.not_mem_nil, or_false]
  omega

/-- Hypotheses of C89 hold in a case with colours: the three lines, in the order of the edge numbers, and the colours. -/
example : ∃ c : Canvas Unit Nat Nat, Made 0 c ∧ Vertices c.g 3 ∧ ∃ c' pic,
    c.draw (some [(0, 10), (1, 11), (2, 12)]) [] = .ok (c', pic) ∧ pic.points = [11, 12, 10] ∧
    pic.segments = [some (11, 12), some (12, 10), some (10, 11)] ∧ pic.lineCols = some [0, 7, 0] ∧ pic.pointCols = some [0, 0, 5] := by
  have h0 : Made 0 (Canvas.new triGraph [] : Canvas Unit Nat Nat) := .new triGraph_built (by decide) (by simp [Dict.keys])
  have h1 := Made.newVertexFill (Made.newEdgeColor h0)
  have h2 := Made.setEdgeColor (1, 2) 7 h1 rfl
  have h3 := Made.setVertexFill 2 5 h2 rfl
  exact ⟨_, h3, triGraph_vertices, _, _, rfl, rfl, rfl, rfl, rfl⟩

/-- C89. How writing a position or a colour fails: KeyError for what is not in the graph, TypeError if there are no positions or
colours yet, IndexError for a vertex or edge that was added since they were made. -/
theorem C89_write_errors [EmptyCollection A] {zero : C} {c : Canvas A P C} (hm : Made zero c) (v : Nat) (e : Nat × Nat) (p : P) (x : C) :
    (v ∉ Dict.keys c.g.adj → c.setVpPos v p = .error .keyError ∧ c.setVertexFill v x = .error .keyError) ∧
    (v ∈ Dict.keys c.g.adj →
      (c.pos = none → c.setVpPos v p = .error .typeError) ∧
      (c.vfill = none → c.setVertexFill v x = .error .typeError) ∧
      (∀ l, c.pos = some l → l.length ≤ v → c.setVpPos v p = .error .indexError) ∧
      (∀ l, c.vfill = some l → l.length ≤ v → c.setVertexFill v x = .error .indexError)) ∧
    (e ∉ c.g.adj.edges → c.setEdgeColor e x = .error .keyError) ∧
    (e ∈ c.g.adj.edges → c.ecol = none → c.setEdgeColor e x = .error .typeError) ∧
    (∀ t, e ∉ c.g.adj.edges → c.setType e t = .error .keyError) := by
  have hb := (Inv.of_made hm).built
  refine ⟨fun hv => ?_, fun hv => ⟨fun h => ?_, fun h => ?_, fun l h hl => ?_, fun l h hl => ?_⟩, fun he => ?_, fun he h => ?_,
    fun t he => ?_⟩
  · unfold Canvas.setVpPos Canvas.setVertexFill
    rw [if_neg hv, if_neg hv]
    exact ⟨rfl, rfl⟩
  · unfold Canvas.setVpPos
    rw [if_pos hv, h]
  · unfold Canvas.setVertexFill
    rw [if_pos hv, h]
  · unfold Canvas.setVpPos
    rw [if_pos hv, h]
    simp only
    rw [if_neg (by omega)]
  · unfold Canvas.setVertexFill
    rw [if_pos hv, h]
    simp only
    rw [if_neg (by omega)]
  · unfold Canvas.setEdgeColor
    split
    · rfl
    · rename_i y hy
      exact absurd ((Adj.mem_edges (Numbered.of_built hb).ok).mpr (by rw [hy]; rfl)) he
  · unfold Canvas.setEdgeColor
    split
    · rename_i hy
      have := (Adj.mem_edges (Numbered.of_built hb).ok).mp he
      rw [hy] at this
      cases this
    · split
      · rename_i hi
        obtain ⟨i, hi'⟩ := ((C57_edge_index hb).1 e).mpr he
        rw [hi] at hi'
        cases hi'
      · rw [h]
  · have hn : c.g.adj.look e.1 e.2 = none := by
      by_contra hc
      exact he ((Adj.mem_edges (Numbered.of_built hb).ok).mpr (Option.isSome_iff_ne_none.mpr hc))
    unfold Canvas.setType
    rw [(setEp_spec (Numbered.of_built hb).ok e t).1 hn]

/-- An edge to a new vertex after the positions are set makes drawing fail with IndexError. -/
theorem C89_new_vertex_fails : ∃ c : Canvas Unit Nat Nat, Made 0 c ∧ Vertices c.g 3 ∧ Vertices (c.addEdge 0 3).g 4 ∧
    c.pos.isSome ∧ (c.addEdge 0 3).draw none [] = .error .indexError := by
  have h0 : Made 0 (Canvas.new triGraph [] : Canvas Unit Nat Nat) := .new triGraph_built (by decide) (by simp [Dict.keys])
  have h1 := Made.setPos (d := [(0, 10), (1, 11), (2, 12)]) h0 (by decide) rfl
  refine ⟨_, h1, triGraph_vertices, ⟨fun v => ?_, by decide⟩, rfl, rfl⟩
  show v ∈ [1, 2, 0, 3] ↔ v < 4
  simp only [List.mem_cons, List.not_mem_nil, or_false]
  omega

/-- An edge added after `new_edge_property('edge_color')` has no row in `edge_color`: colouring it fails with IndexError,
after the property of the edge has been written. -/
theorem C89_new_edge_fails : ∃ c : Canvas Unit Nat Nat, Made 0 c ∧ Vertices c.g 3 ∧ Vertices (c.addEdge 0 2).g 3 ∧
    (0, 2) ∈ (c.addEdge 0 2).g.adj.edges ∧ (c.addEdge 0 2).setEdgeColor (0, 2) 7 = .error .indexError := by
  have h0 : Made 0 (Canvas.new triGraph [] : Canvas Unit Nat Nat) := .new triGraph_built (by decide) (by simp [Dict.keys])
  refine ⟨_, Made.newEdgeColor h0, triGraph_vertices, ⟨fun v => ?_, by decide⟩, by decide, rfl⟩
  show v ∈ [1, 2, 0] ↔ v < 3
  simp only [List.mem_cons, List.not_mem_nil, or_false]
  omega

/-! ## C90 -/

/-- C90, as far as it holds: vertices are drawn at their positions when the nodes of the graph are in the order
`0, ..., n - 1`. MISSING from the full property: other orders of the nodes, for which it fails (`C90_right_iff`,
`C90_minimal_misplaced`). -/
theorem C90_place_partial [EmptyCollection A] {zero : C} {c c' : Canvas A P C} (hm : Made zero c) {n : Nat}
    (hk : Dict.keys c.g.adj = List.range n)
    {arg : Option (Dict Nat P)} (ha : ∀ d, arg = some d → Dict.Ok d) {spring : Dict Nat P} (hs : Dict.Ok spring)
    {pic : Picture P C} (h : c.draw arg spring = .ok (c', pic)) :
    ∀ v < n, pic.points[v]? = Dict.get? c'.vpos v ∧ ∀ d, arg = some d → pic.points[v]? = Dict.get? d v := by
  obtain ⟨h1, l, segs, hl, hseg, rfl⟩ := draw_ok h
  have key : Made zero c' ∧ c'.g = c.g := by
    rcases h1 with ⟨-, rfl⟩ | ⟨d, hd, hset⟩
    · exact ⟨hm, rfl⟩
    · refine ⟨.setPos hm ?_ hset, (setPos_same hset).1⟩
      rcases hd with rfl | ⟨-, -, rfl⟩
      · exact ha d rfl
      · exact hs
  obtain ⟨hm', hg⟩ := key
  have hn : c.g.adj.length = n := by rw [← keys_length, hk, List.length_range]
  intro v hvn
  refine ⟨(Inv.of_made hm').place (by rw [hg, hn]; exact hk) l hl v (by rw [hg, hn]; exact hvn), ?_⟩
  rintro d rfl
  rcases h1 with ⟨h0, -⟩ | ⟨d', hd, hset⟩
  · cases h0
  · rcases hd with hd | ⟨h0, -⟩
    · cases hd
      obtain ⟨-, -, -, -, -, l', hl', hl''⟩ := setPos_same hset
      obtain rfl : l = l' := Option.some.inj (hl.symm.trans hl')
      exact lookAll_get hl'' (by rw [hk, List.getElem?_range hvn])
    · cases h0

/-- C90. What is drawn: point number `i` is at the position of the `i`-th node in the order of the graph. -/
theorem C90_permuted {c c' : Canvas A P C} {d spring : Dict Nat P} {pic : Picture P C}
    (h : c.draw (some d) spring = .ok (c', pic)) {i w : Nat} (hw : (Dict.keys c.g.adj)[i]? = some w) :
    pic.points[i]? = Dict.get? d w := by
  obtain ⟨h1, l, segs, hl, hseg, rfl⟩ := draw_ok h
  rcases h1 with ⟨h0, -⟩ | ⟨d', hd, hset⟩
  · cases h0
  · rcases hd with hd | ⟨h0, -⟩
    · cases hd
      obtain ⟨-, -, -, -, -, l', hl', hl''⟩ := setPos_same hset
      obtain rfl : l = l' := Option.some.inj (hl.symm.trans hl')
      exact lookAll_get hl'' hw
    · cases h0

/-- The dict `{v: f(v) for v in range(n)}`. -/
theorem get?_rangeMap (f : Nat → P) (n : Nat) {v : Nat} (hv : v < n) :
    Dict.get? ((List.range n).map fun v => (v, f v)) v = some (f v) := by
  refine Dict.get?_of_mem ?_ (List.mem_map.mpr ⟨v, List.mem_range.mpr hv, rfl⟩)
  show (Dict.keys _).Nodup
  have : Dict.keys ((List.range n).map fun v => (v, f v)) = List.range n := by
    simp [Dict.keys, List.map_map, Function.comp_def]
  rw [this]; exact List.nodup_range

theorem keys_rangeMap (f : Nat → P) (n : Nat) : Dict.keys ((List.range n).map fun v => (v, f v)) = List.range n := by
  simp [Dict.keys, List.map_map, Function.comp_def]

/-- C90. Vertices are drawn at the positions passed, whatever these are, exactly when the nodes of the graph are in the
order `0, ..., n - 1`. -/
theorem C90_right_iff [EmptyCollection A] [Nontrivial P] {g : QGraph A} (hg : Built g) {n : Nat} (hv : Vertices g n) :
    (∀ (d : Dict Nat P) (c' : Canvas A P C) (pic : Picture P C), Dict.Ok d → (Canvas.new g []).draw (some d) [] = .ok (c', pic) →
      ∀ v < n, pic.points[v]? = Dict.get? d v) ↔ Dict.keys g.adj = List.range n := by
  constructor
  · intro h
    obtain ⟨p, q, hpq⟩ := exists_pair_ne P
    have hlen : (Dict.keys g.adj).length = n := by rw [keys_length, vertices_length hg hv]
    refine List.ext_getElem (by simpa using hlen) fun i hi hi' => ?_
    by_contra hne
    have hin : i < n := hlen ▸ hi
    have hwn : (Dict.keys g.adj)[i] < n := (hv.1 _).mp (List.getElem_mem hi)
    simp only [List.getElem_range] at hne
    classical
    set d : Dict Nat P := (List.range n).map fun v => (v, if v = i then p else q) with hd
    have hok : Dict.Ok d := by
      show (Dict.keys d).Nodup
      rw [hd, keys_rangeMap]; exact List.nodup_range
    have hl : lookAll d (Dict.keys g.adj) ≠ none := by
      intro h0
      have := (lookAll_isSome (pos := d) (vs := Dict.keys g.adj)).mpr (fun v hv' => by
        rw [hd, keys_rangeMap]; exact List.mem_range.mpr ((hv.1 v).mp hv'))
      rw [h0] at this
      cases this
    obtain ⟨l, hl⟩ := Option.ne_none_iff_exists'.mp hl
    have hcn : ∃ (c' : Canvas A P C) (pic : Picture P C), (Canvas.new g []).draw (some d) [] = .ok (c', pic) := by
      have hset : (Canvas.new g [] : Canvas A P C).setPos d =
          .ok { (Canvas.new g [] : Canvas A P C) with vpos := setAttrs (Dict.keys g.adj) [] d, pos := some l } := by
        unfold Canvas.setPos
        show (match lookAll d (Dict.keys g.adj) with | none => _ | some l => _) = _
        rw [hl]; rfl
      obtain ⟨i1, i2, i3, i4⟩ := C57_edge_index hg
      have hll : l.length = n := (lookAll_length hl).trans hlen
      obtain ⟨segs, a1, -⟩ := fillSegments_spec (pos := l) i3 g.adj.edges
        (List.replicate g.adj.edges.length none) (N := g.adj.edges.length) (by simp)
        (Adj.edges_nodup (Numbered.of_built hg).ok) (fun e he => by
          obtain ⟨k, hk⟩ := (i1 e).mpr he
          exact ⟨⟨k, hk, i2 e k hk⟩, hll ▸ (hv.1 _).mp (mem_edges_src he), hll ▸ (hv.1 _).mp (hv.2 e he)⟩)
      refine ⟨{ (Canvas.new g [] : Canvas A P C) with vpos := setAttrs (Dict.keys g.adj) [] d, pos := some l },
        ⟨segs, none, l, none⟩, ?_⟩
      simp only [Canvas.draw, hset]
      have a1' : fillSegments (Canvas.new g [] : Canvas A P C).g.index l (Canvas.new g [] : Canvas A P C).g.adj.edges
        (List.replicate (Canvas.new g [] : Canvas A P C).g.adj.edges.length none) = .ok segs := a1
      rw [a1']
      rfl
    obtain ⟨c', pic, hdraw⟩ := hcn
    have h1 := h d c' pic hok hdraw i hin
    have h2 := C90_permuted hdraw (i := i) (List.getElem?_eq_getElem hi)
    have h3 : Dict.get? d i = some p := by rw [hd, get?_rangeMap _ _ hin, if_pos rfl]
    have h4 : Dict.get? d (Dict.keys g.adj)[i] = some q := by rw [hd, get?_rangeMap _ _ hwn, if_neg hne]
    exact hpq (Option.some.inj (h3.symm.trans (h1.symm.trans (h2.trans h4))))
  · intro hk d c' pic _ h v hvn
    exact C90_permuted h (by rw [show (Canvas.new g [] : Canvas A P C).g = g from rfl, hk, List.getElem?_range hvn])

/-! ### Random graphs -/

theorem keys_addNode_prefix (g : Adj A) (v : Nat) : Dict.keys g <+: Dict.keys (Adj.addNode g v) := by
  unfold Adj.addNode
  split
  · exact List.prefix_rfl
  · rw [Dict.keys_set]
    split
    · exact List.prefix_rfl
    · exact List.prefix_append _ _

theorem keys_addEdge_prefix (g : Adj A) (u v : Nat) (x : EAttr A) : Dict.keys g <+: Dict.keys (g.addEdge u v x) := by
  unfold Adj.addEdge
  simp only
  have h := (keys_addNode_prefix g u).trans (keys_addNode_prefix (g.addNode u) v)
  split
  · rename_i d hd
    rw [Dict.keys_set, if_pos (Dict.get?_isSome.mp (by rw [hd]; rfl))]
    exact h
  · exact h

theorem joinUntil_prefix [EmptyCollection A] (es : List (Nat × Nat)) : ∀ {u : UF Nat} {g g' : Adj A}, joinUntil es u g = .ok g' →
    Dict.keys g <+: Dict.keys g' := by
  induction es with
  | nil => intro u g g' h; cases h; exact List.prefix_rfl
  | cons e es ih =>
    intro u g g' h
    obtain ⟨n1, n2⟩ := e
    simp only [joinUntil] at h
    split at h
    · cases h
    · have hb : Dict.keys g <+: Dict.keys (g.addBoth n1 n2) :=
        (keys_addEdge_prefix g n1 n2 _).trans (keys_addEdge_prefix _ n2 n1 _)
      split at h
      · cases h; exact hb
      · exact hb.trans (ih h)

variable {D : Type*} [LinearOrder D]

/-- C90 fails in graphs from `minimal_random_graph` (finding F31): when some pair of points is closer together than vertex 0
is to any other, vertex 0 is drawn at the position of another vertex, although all positions differ. -/
theorem C90_minimal_misplaced [EmptyCollection A] {n : Nat} {d : Nat → Nat → D} {a b : Nat} (hab : a < b) (hbn : b < n)
    (hclose : ∀ j, 0 < j → j < n → d a b < d 0 j) {g : QGraph A} (hg : minimalGraph n d = .ok g)
    {pos spring : Dict Nat P} (hinj : ∀ v w, v < n → w < n → Dict.get? pos v = Dict.get? pos w → v = w)
    {c' : Canvas A P C} {pic : Picture P C} (h : (Canvas.new g []).draw (some pos) spring = .ok (c', pic)) :
    ∃ w < n, w ≠ 0 ∧ pic.points[0]? = Dict.get? pos w ∧ pic.points[0]? ≠ Dict.get? pos 0 := by
  obtain ⟨g0, hg0, -, hv, -⟩ := C63_minimal (A := A) (by omega : 2 ≤ n) d
  obtain rfl : g0 = g := Except.ok.inj (hg0.symm.trans hg)
  have key : ∃ w, w ≠ 0 ∧ (Dict.keys g0.adj)[0]? = some w := by
    unfold minimalGraph at hg
    split at hg
    · cases hg
    · rename_i g1 hg1
      cases hg
      have hmem : (a, b) ∈ (allPairs n).insertionSort (pairLe d) := by
        rw [List.mem_insertionSort, mem_allPairs]; exact ⟨hab, hbn⟩
      have hsort : ((allPairs n).insertionSort (pairLe d)).Pairwise (pairLe d) := List.pairwise_insertionSort (pairLe d) _
      cases hes : (allPairs n).insertionSort (pairLe d) with
      | nil => rw [hes] at hmem; cases hmem
      | cons e es =>
        rw [hes] at hg1 hmem hsort
        obtain ⟨x, y⟩ := e
        have hxy : (x, y) ∈ (allPairs n).insertionSort (pairLe d) := by rw [hes]; simp
        rw [List.mem_insertionSort, mem_allPairs] at hxy
        have hx0 : x ≠ 0 := by
          rintro rfl
          have h1 := hclose y hxy.1 hxy.2
          rcases List.mem_cons.mp hmem with h2 | h2
          · cases h2; exact absurd h1 (lt_irrefl _)
          · have h3 := (List.pairwise_cons.mp hsort).1 _ h2
            rcases h3 with h3 | ⟨h3, -⟩
            · exact absurd (h1.trans h3) (lt_irrefl _)
            · exact absurd (h3 ▸ h1) (lt_irrefl _)
        refine ⟨x, hx0, ?_⟩
        simp only [joinUntil] at hg1
        have hpre : ∀ t : List Nat, [x] <+: t → t[0]? = some x := by
          rintro t ⟨s, rfl⟩; rfl
        have hfirst : [x] <+: Dict.keys (Adj.addBoth ([] : Adj A) x y) := by
          refine List.IsPrefix.trans ?_ ((keys_addEdge_prefix _ y x _))
          unfold Adj.addEdge
          simp only
          have h1 : [x] <+: Dict.keys (Adj.addNode ([] : Adj A) x) := List.prefix_rfl
          have h2 := h1.trans (keys_addNode_prefix _ y)
          split
          · rename_i d' hd'
            rw [Dict.keys_set, if_pos (Dict.get?_isSome.mp (by rw [hd']; rfl))]
            exact h2
          · exact h2
        split at hg1
        · cases hg1
        · split at hg1
          · cases hg1; exact hpre _ hfirst
          · exact hpre _ (hfirst.trans (joinUntil_prefix _ hg1))
  obtain ⟨w, hw0, hw⟩ := key
  have hwn : w < n := (hv w).mp (List.mem_of_getElem? hw)
  have hp := C90_permuted h (i := 0) hw
  exact ⟨w, hwn, hw0, hp, fun h0 => hw0 (hinj w 0 hwn (by omega) (hp.symm.trans h0))⟩

/-- Three points on a line, the last two close together. -/
def linePt (i : Nat) : Int := if i = 0 then 0 else i + 9

/-- Hypotheses of `C90_minimal_misplaced` hold for these points: the three vertices are drawn at 10, 11 and 0, and the line
between the neighbours 0 and 1 is drawn from 10 to 11. -/
example : ∃ (g : QGraph Unit) (c' : Canvas Unit Int Nat) (pic : Picture Int Nat),
    minimalGraph 3 (fun i j => (linePt i - linePt j) ^ 2) = .ok g ∧
    (Canvas.new g []).draw (some [(0, 0), (1, 10), (2, 11)]) [] = .ok (c', pic) ∧ pic.points = [10, 11, 0] ∧
    pic.segments = [some (10, 11), some (11, 10), some (11, 0), some (0, 11)] := by
  refine ⟨_, _, _, rfl, rfl, rfl, rfl⟩

/-! ## C91 -/

/-- C91. `get_edge_type(t)` returns exactly the edges whose type is `t`, each once. -/
theorem C91_get_edge_type [EmptyCollection A] {g : QGraph A} (hg : Built g) (t : Int) :
    (g.getEdgeType t).Nodup ∧
    ∀ u v, (u, v) ∈ g.getEdgeType t ↔ ∃ x, g.adj.look u v = some x ∧ x.etype = some t := by
  have hn := Numbered.of_built hg
  refine ⟨(Adj.edges_nodup hn.ok).filter _, fun u v => ?_⟩
  unfold QGraph.getEdgeType
  rw [List.mem_filter, Adj.mem_edges hn.ok]
  cases h : g.adj.look u v with
  | none => simp
  | some x => simp

/-- C91. After `set_ep(e, 'edge_type', t)`, `get_edge_type(t)` has gained `e`, the other lists have lost it, and they
are the same otherwise. -/
theorem C91_set_type [EmptyCollection A] {g g' : QGraph A} (hg : Built g) {e : Nat × Nat} {t : Int} (h : g.setEp e t = some g') (s : Int)
    (u v : Nat) : (u, v) ∈ g'.getEdgeType s ↔ if (u, v) = e then s = t else (u, v) ∈ g.getEdgeType s := by
  have hg' : Built g' := .ep e t hg h
  have hlook : g'.adj.look u v = if (u, v) = e then (g.adj.look u v).map fun x => { x with etype := some t } else g.adj.look u v := by
    unfold QGraph.setEp Adj.setType at h
    cases h1 : Dict.get? g.adj e.1 with
    | none => rw [h1] at h; cases h
    | some d =>
      rw [h1] at h
      simp only at h
      cases h2 : Dict.get? d e.2 with
      | none => rw [h2] at h; cases h
      | some x =>
        rw [h2] at h
        simp only [Option.some.injEq] at h
        subst h
        obtain ⟨a, b⟩ := e
        simp only [Adj.look, Dict.get?_set, Prod.mk.injEq] at h1 h2 ⊢
        by_cases hu : u = a
        · subst hu
          simp only [if_true, true_and, h1, Option.bind_some, Dict.get?_set]
          by_cases hv : v = b
          · subst hv; simp [h2]
          · simp [hv]
        · simp [hu]
  have hsome : (g.adj.look e.1 e.2).isSome := by
    unfold QGraph.setEp Adj.setType at h
    unfold Adj.look
    cases h1 : Dict.get? g.adj e.1 with
    | none => rw [h1] at h; cases h
    | some d =>
      rw [h1] at h
      simp only at h
      cases h2 : Dict.get? d e.2 with
      | none => rw [h2] at h; cases h
      | some x => simp [h2]
  rw [(C91_get_edge_type hg' s).2, (C91_get_edge_type hg s).2, hlook]
  split
  · rename_i he
    subst he
    obtain ⟨x, hx⟩ := Option.isSome_iff_exists.mp hsome
    simp only at hx
    simp [hx, eq_comm]
  · rfl

/-- C91. `set_ep` on an edge that the graph does not have raises KeyError, for `edge_type` and `edge_color` alike. -/
theorem C91_no_edge [EmptyCollection A] {zero : C} {c : Canvas A P C} (hm : Made zero c) {e : Nat × Nat} (he : e ∉ c.g.adj.edges) (t : Int)
    (x : C) : c.setType e t = .error .keyError ∧ c.setEdgeColor e x = .error .keyError := by
  have hn := Numbered.of_built (Inv.of_made hm).built
  have hl : c.g.adj.look e.1 e.2 = none := by
    cases h : c.g.adj.look e.1 e.2 with
    | none => rfl
    | some y => exact absurd ((Adj.mem_edges hn.ok).mpr (by rw [h]; rfl)) he
  constructor
  · have h2 : c.g.setEp e t = none := by
      unfold QGraph.setEp
      rw [(Adj.setType_spec hn.ok e.1 e.2 t).1 hl]
    unfold Canvas.setType
    rw [h2]
  · unfold Canvas.setEdgeColor
    rw [hl]

/-- C90. A new graph has positions exactly if each of its vertices has one. -/
theorem C90_new_positions [EmptyCollection A] {g : QGraph A} (hg : Built g) {vpos : Dict Nat P} (hv : Dict.Ok vpos)
    (hin : ∀ v ∈ Dict.keys vpos, v ∈ Dict.keys g.adj) :
    ((Canvas.new g vpos : Canvas A P C).pos ≠ none ↔ ∀ v ∈ Dict.keys g.adj, Dict.get? vpos v ≠ none) ∧
    ∀ l, (Canvas.new g vpos : Canvas A P C).pos = some l → (Dict.keys g.adj).map (Dict.get? vpos) = l.map some := by
  have hn := Numbered.of_built hg
  constructor
  · constructor
    · intro h v hv'
      simp only [Canvas.new] at h
      split at h
      · obtain ⟨l, hl⟩ := Option.ne_none_iff_exists'.mp h
        have := lookAll_iff.mp hl
        obtain ⟨p, -, hp⟩ := List.mem_map.mp (this ▸ List.mem_map.mpr ⟨v, hv', rfl⟩ : Dict.get? vpos v ∈ l.map some)
        rw [← hp]; simp
      · exact absurd rfl h
    · intro h
      have hp : (Dict.keys vpos).Perm (Dict.keys g.adj) := (List.perm_ext_iff_of_nodup hv hn.ok.1).mpr fun v =>
        ⟨hin v, fun hv' => by
          by_contra hno
          exact h v hv' (Dict.get?_eq_none.mpr hno)⟩
      have hlen : vpos.length = g.adj.length := by
        rw [← keys_length, hp.length_eq, keys_length]
      simp only [Canvas.new, hlen, if_true]
      generalize Dict.keys g.adj = vs at h
      induction vs with
      | nil => simp [lookAll]
      | cons v vs ih =>
        have h1 := h v (by simp)
        obtain ⟨p, hp⟩ := Option.ne_none_iff_exists'.mp h1
        obtain ⟨l, hl⟩ := Option.ne_none_iff_exists'.mp (ih fun u hu => h u (by simp [hu]))
        simp [lookAll, hp, hl]
  · intro l hl
    simp only [Canvas.new] at hl
    split at hl
    · exact lookAll_iff.mp hl
    · cases hl

/-- The hypotheses of `C91_no_edge` and of `C90_new_positions` are met; both cases of the latter occur. -/
example : Made 0 (Canvas.new triGraph [] : Canvas Unit Nat Nat) ∧ (0, 2) ∉ triGraph.adj.edges ∧
    (Canvas.new triGraph [(1, 5), (0, 6)] : Canvas Unit Nat Nat).pos = none ∧
    (Canvas.new triGraph [(1, 5), (0, 6), (2, 7)] : Canvas Unit Nat Nat).pos = some [5, 7, 6] :=
  ⟨.new triGraph_built (by decide) (by simp [Dict.keys]), by decide, rfl, rfl⟩

/-- C91. `out_neighbours(v)` are the ends of the edges from `v`, each once. -/
theorem C91_out_neighbours [EmptyCollection A] {g : QGraph A} (hg : Built g) (v : Nat) :
    (g.outNeighbours v).Nodup ∧ ∀ w, w ∈ g.outNeighbours v ↔ (v, w) ∈ g.adj.edges := by
  have hn := Numbered.of_built hg
  unfold QGraph.outNeighbours
  refine ⟨?_, fun w => ?_⟩
  · refine List.Nodup.map_on ?_ ((Adj.edges_nodup hn.ok).filter _)
    rintro ⟨a, b⟩ ha ⟨a', b'⟩ ha' h
    simp only [List.mem_filter, beq_iff_eq] at ha ha' h
    exact Prod.ext (ha.2.trans ha'.2.symm) h
  · simp only [List.mem_map, List.mem_filter, beq_iff_eq]
    constructor
    · rintro ⟨⟨a, b⟩, ⟨h, rfl⟩, rfl⟩; exact h
    · intro h; exact ⟨(v, w), ⟨h, rfl⟩, rfl⟩

/-- Hypotheses of C91 hold in a graph with two types of edges. -/
example : ∃ g' : QGraph Unit, Built triGraph ∧ triGraph.setEp (2, 0) 4 = some g' ∧ g'.getEdgeType 4 = [(2, 0)] ∧
    g'.getEdgeType 1 = [(1, 2), (0, 1)] ∧ g'.outNeighbours 2 = [0] := ⟨_, triGraph_built, rfl, rfl, rfl, rfl⟩

end

end Verif
