import Verif.GraphShow
import Verif.Props.GraphDraw

/-! # Properties of `show_type` and `show_active`: C94 -/

namespace Verif

open DrawSpec GSpec GenSpec Canvas

variable {A P C : Type*}

namespace DrawSpec

/-- The colours that a picture of the graph shows: `f v` at point `v`, `h e` on the line of edge `e`. -/
structure Coloured (g : QGraph A) (n : Nat) (pic : Picture P C) (f : Nat → C) (h : Nat × Nat → C) : Prop where
  points : ∃ l, pic.pointCols = some l ∧ ∀ v < n, l[v]? = some (f v)
  lines : ∃ l, pic.lineCols = some l ∧ ∀ e ∈ g.adj.edges, ∃ i, Dict.get? g.index e = some i ∧ l[i]? = some (h e)

/-- Edge `e` is in the graph and has type `t`. -/
def OfType (g : QGraph A) (e : Nat × Nat) (t : Int) : Prop := e ∈ g.adj.edges ∧ ((g.adj.look e.1 e.2).bind EAttr.etype) = some t

instance (g : QGraph A) (e : Nat × Nat) (t : Int) : Decidable (OfType g e t) := by unfold OfType; infer_instance

/-- The queue on some edge into `v` is active. -/
def ActiveInto (g : QGraph A) (act : Nat → Bool) (v : Nat) : Prop :=
  ∃ e ∈ g.adj.edges, e.2 = v ∧ ∃ k, Dict.get? g.index e = some k ∧ act k = true

end DrawSpec

/-! ## Lemmas -/

theorem setVertexFill_ok {c c' : Canvas A P C} {v : Nat} {x : C} (h : c.setVertexFill v x = .ok c') :
    c'.g = c.g ∧ c'.vpos = c.vpos ∧ c'.pos = c.pos ∧ c'.ecolA = c.ecolA ∧ c'.ecol = c.ecol ∧
      c'.vfillA = Dict.set c.vfillA v x ∧ c'.vfill.isSome := by
  unfold Canvas.setVertexFill at h
  split at h
  · split at h
    · cases h
    · split at h
      · cases h; exact ⟨rfl, rfl, rfl, rfl, rfl, rfl, rfl⟩
      · cases h
  · cases h

theorem setEdgeColor_ok {c c' : Canvas A P C} {e : Nat × Nat} {x : C} (h : c.setEdgeColor e x = .ok c') :
    c'.g = c.g ∧ c'.vpos = c.vpos ∧ c'.pos = c.pos ∧ c'.vfillA = c.vfillA ∧ c'.vfill = c.vfill ∧
      c'.ecolA = Dict.set c.ecolA e x ∧ c'.ecol.isSome := by
  unfold Canvas.setEdgeColor at h
  split at h
  · cases h
  · split at h
    · cases h
    · split at h
      · cases h
      · split at h
        · cases h; exact ⟨rfl, rfl, rfl, rfl, rfl, rfl, rfl⟩
        · cases h

variable [EmptyCollection A]

theorem setVertexFill_works {zero : C} {c : Canvas A P C} (hm : Made zero c) {n : Nat} (hv : Vertices c.g n) {v : Nat}
    (h : v ∈ Dict.keys c.g.adj) (hf : c.vfill.isSome) (x : C) : ∃ c', c.setVertexFill v x = .ok c' := by
  obtain ⟨l, hl⟩ := Option.isSome_iff_exists.mp hf
  have hi := Inv.of_made hm
  have hlen := (hi.vfill l hl).1.trans (vertices_length hi.built hv)
  unfold Canvas.setVertexFill
  rw [if_pos h, hl]
  simp only
  rw [if_pos (hlen ▸ (hv.1 v).mp h)]
  exact ⟨_, rfl⟩

theorem look_of_edge {g : QGraph A} (hg : Built g) {e : Nat × Nat} (h : e ∈ g.adj.edges) : ∃ x, g.adj.look e.1 e.2 = some x := by
  exact Option.isSome_iff_exists.mp ((Adj.mem_edges (Numbered.of_built hg).ok (u := e.1) (v := e.2)).mp h)

theorem setEdgeColor_works {zero : C} {c : Canvas A P C} (hm : Made zero c) {e : Nat × Nat} (h : e ∈ c.g.adj.edges)
    (hf : c.ecol.isSome) (x : C) : ∃ c', c.setEdgeColor e x = .ok c' := by
  obtain ⟨l, hl⟩ := Option.isSome_iff_exists.mp hf
  have hi := Inv.of_made hm
  obtain ⟨y, hy⟩ := look_of_edge hi.built h
  obtain ⟨i1, i2, -, -⟩ := C57_edge_index hi.built
  obtain ⟨k, hk⟩ := (i1 e).mpr h
  unfold Canvas.setEdgeColor
  rw [hy]
  simp only [hl, hk]
  rw [if_pos ((hi.ecol l hl).1 ▸ i2 e k hk)]
  exact ⟨_, rfl⟩

theorem paintNodes_ok {zero : C} {col : Nat → Except Err C} : ∀ {vs : List Nat} {c c' : Canvas A P C}, Made zero c →
    paintNodes col vs c = .ok c' → c.vfill.isSome → Made zero c' ∧ c'.g = c.g ∧ c'.pos = c.pos ∧ c'.ecolA = c.ecolA ∧
      c'.ecol = c.ecol ∧ c'.vfill.isSome ∧ (∀ v ∈ vs, ∃ x, col v = .ok x ∧ Dict.get? c'.vfillA v = some x) ∧
      ∀ v, v ∉ vs → Dict.get? c'.vfillA v = Dict.get? c.vfillA v
  | [], c, c', hm, h, hs => by
    cases h; exact ⟨hm, rfl, rfl, rfl, rfl, hs, by simp, fun _ _ => rfl⟩
  | v :: vs, c, c', hm, h, hs => by
    rw [paintNodes] at h
    split at h
    · cases h
    · rename_i x hx
      split at h
      · cases h
      · rename_i c1 h1
        obtain ⟨a1, a2, a3, a4, a5, a6, a7⟩ := setVertexFill_ok h1
        obtain ⟨b1, b2, b3, b4, b5, b6, b7, b8⟩ := paintNodes_ok (.setVertexFill v x hm h1) h a7
        refine ⟨b1, b2.trans a1, b3.trans a3, b4.trans a4, b5.trans a5, b6, fun w hw => ?_, fun w hw => ?_⟩
        · by_cases hm' : w ∈ vs
          · exact b7 w hm'
          · obtain rfl : w = v := (List.mem_cons.mp hw).resolve_right hm'
            exact ⟨x, hx, by rw [b8 w hm', a6, Dict.get?_set, if_pos rfl]⟩
        · rw [b8 w fun hm' => hw (List.mem_cons_of_mem _ hm'), a6, Dict.get?_set,
            if_neg (by rintro rfl; exact hw List.mem_cons_self)]

theorem paintEdges_ok {zero : C} {col : Nat × Nat → Except Err C} : ∀ {es : List (Nat × Nat)} {c c' : Canvas A P C},
    Made zero c → paintEdges col es c = .ok c' → c.ecol.isSome → Made zero c' ∧ c'.g = c.g ∧ c'.pos = c.pos ∧
      c'.vfillA = c.vfillA ∧ c'.vfill = c.vfill ∧ c'.ecol.isSome ∧
      (∀ e ∈ es, ∃ x, col e = .ok x ∧ Dict.get? c'.ecolA e = some x) ∧
      ∀ e, e ∉ es → Dict.get? c'.ecolA e = Dict.get? c.ecolA e
  | [], c, c', hm, h, hs => by
    cases h; exact ⟨hm, rfl, rfl, rfl, rfl, hs, by simp, fun _ _ => rfl⟩
  | v :: vs, c, c', hm, h, hs => by
    rw [paintEdges] at h
    split at h
    · cases h
    · rename_i x hx
      split at h
      · cases h
      · rename_i c1 h1
        obtain ⟨a1, a2, a3, a4, a5, a6, a7⟩ := setEdgeColor_ok h1
        obtain ⟨b1, b2, b3, b4, b5, b6, b7, b8⟩ := paintEdges_ok (.setEdgeColor v x hm h1) h a7
        refine ⟨b1, b2.trans a1, b3.trans a3, b4.trans a4, b5.trans a5, b6, fun w hw => ?_, fun w hw => ?_⟩
        · by_cases hm' : w ∈ vs
          · exact b7 w hm'
          · obtain rfl : w = v := (List.mem_cons.mp hw).resolve_right hm'
            exact ⟨x, hx, by rw [b8 w hm', a6, Dict.get?_set, if_pos rfl]⟩
        · rw [b8 w fun hm' => hw (List.mem_cons_of_mem _ hm'), a6, Dict.get?_set,
            if_neg (by rintro rfl; exact hw List.mem_cons_self)]

theorem paintNodes_works {zero : C} {col : Nat → Except Err C} {n : Nat} : ∀ {vs : List Nat} {c : Canvas A P C}, Made zero c →
    Vertices c.g n → c.vfill.isSome → (∀ v ∈ vs, v ∈ Dict.keys c.g.adj) → (∀ v ∈ vs, ∃ x, col v = .ok x) →
    ∃ c', paintNodes col vs c = .ok c'
  | [], c, _, _, _, _, _ => ⟨c, rfl⟩
  | v :: vs, c, hm, hv, hs, hk, hc => by
    obtain ⟨x, hx⟩ := hc v List.mem_cons_self
    obtain ⟨c1, h1⟩ := setVertexFill_works hm hv (hk v List.mem_cons_self) hs x
    obtain ⟨a1, -, -, -, -, -, a7⟩ := setVertexFill_ok h1
    rw [paintNodes, hx]
    simp only [h1]
    exact paintNodes_works (.setVertexFill v x hm h1) (a1 ▸ hv) a7
      (fun w hw => by rw [a1]; exact hk w (List.mem_cons_of_mem _ hw)) fun w hw => hc w (List.mem_cons_of_mem _ hw)

theorem paintEdges_works {zero : C} {col : Nat × Nat → Except Err C} : ∀ {es : List (Nat × Nat)} {c : Canvas A P C},
    Made zero c → c.ecol.isSome → (∀ e ∈ es, e ∈ c.g.adj.edges) → (∀ e ∈ es, ∃ x, col e = .ok x) →
    ∃ c', paintEdges col es c = .ok c'
  | [], c, _, _, _, _ => ⟨c, rfl⟩
  | v :: vs, c, hm, hs, hk, hc => by
    obtain ⟨x, hx⟩ := hc v List.mem_cons_self
    obtain ⟨c1, h1⟩ := setEdgeColor_works hm (hk v List.mem_cons_self) hs x
    obtain ⟨a1, -, -, -, -, -, a7⟩ := setEdgeColor_ok h1
    rw [paintEdges, hx]
    simp only [h1]
    exact paintEdges_works (.setEdgeColor v x hm h1) a7
      (fun w hw => by rw [a1]; exact hk w (List.mem_cons_of_mem _ hw)) fun w hw => hc w (List.mem_cons_of_mem _ hw)

/-- What a successful call of `paintDraw` did. -/
theorem paintDraw_ok {zero : C} {c c' : Canvas A P C} (hm : Made zero c) {n : Nat} (hv : Vertices c.g n) (he : c.ecol.isSome)
    (hf : c.vfill.isSome) {vcol : Nat → Except Err C} {ecol : Nat × Nat → Except Err C} {arg : Option (Dict Nat P)}
    (ha : ∀ d, arg = some d → Dict.Ok d) {spring : Dict Nat P} (hs : Dict.Ok spring) {pic : Picture P C}
    (h : c.paintDraw vcol ecol arg spring = .ok (c', pic)) :
    (∃ c1 : Canvas A P C, Made zero c1 ∧ c1.g = c.g ∧ Shows zero c1 n pic) ∧ c'.g = c.g ∧
      (∃ l, pic.pointCols = some l ∧ ∀ v < n, ∃ x, vcol v = .ok x ∧ l[v]? = some x) ∧
      ∃ l, pic.lineCols = some l ∧ ∀ e ∈ c.g.adj.edges, ∃ i x, Dict.get? c.g.index e = some i ∧ ecol e = .ok x ∧
        l[i]? = some x := by
  unfold Canvas.paintDraw at h
  split at h
  · cases h
  · rename_i c1 h1
    obtain ⟨a1, a2, a3, a4, a5, a6, a7, -⟩ := paintNodes_ok hm h1 hf
    split at h
    · cases h
    · rename_i c2 h2
      obtain ⟨b1, b2, b3, b4, b5, b6, b7, -⟩ := paintEdges_ok a1 h2 (a5 ▸ he)
      have hg : c2.g = c.g := b2.trans a2
      have hv2 : Vertices c2.g n := hg ▸ hv
      obtain ⟨s, d1, d2, d3⟩ := C89_drawing b1 hv2 ha hs h
      obtain ⟨hd, l, segs, -, -, rfl⟩ := draw_ok h
      have hcol : c'.ecol = c2.ecol ∧ c'.vfill = c2.vfill := by
        rcases hd with ⟨-, rfl⟩ | ⟨d, -, hset⟩
        · exact ⟨rfl, rfl⟩
        · obtain ⟨-, -, q1, -, q2, -⟩ := setPos_same hset
          exact ⟨q1, q2⟩
      refine ⟨⟨c2, b1, hg, s⟩, d1.trans hg, ?_, ?_⟩
      · obtain ⟨lv, hlv⟩ := Option.isSome_iff_exists.mp (b5 ▸ a6 : c2.vfill.isSome)
        refine ⟨lv, hcol.2.trans hlv, fun v hvn => ?_⟩
        obtain ⟨x, hx, hx'⟩ := a7 v ((hv.1 v).mpr hvn)
        refine ⟨x, hx, ?_⟩
        have := s.pointCols lv (hcol.2.trans hlv) v hvn
        rw [this, b4, hx']
        rfl
      · obtain ⟨le, hle⟩ := Option.isSome_iff_exists.mp b6
        refine ⟨le, hcol.1.trans hle, fun e he' => ?_⟩
        obtain ⟨x, hx, hx'⟩ := b7 e (a2 ▸ he')
        obtain ⟨i, -, -, hi, -⟩ := s.ends e (hg ▸ he')
        refine ⟨i, x, hg ▸ hi, hx, ?_⟩
        have := s.lineCols le (hcol.1.trans hle) e i hi
        rw [this, hx']
        rfl

/-- When `paintDraw` works. -/
theorem paintDraw_iff {zero : C} {c : Canvas A P C} (hm : Made zero c) {n : Nat} (hv : Vertices c.g n) (he : c.ecol.isSome)
    (hf : c.vfill.isSome) {vcol : Nat → Except Err C} {ecol : Nat × Nat → Except Err C} {arg : Option (Dict Nat P)}
    (ha : ∀ d, arg = some d → Dict.Ok d) {spring : Dict Nat P} (hs : Dict.Ok spring) (hsp : ∀ v < n, v ∈ Dict.keys spring) :
    (∃ c' pic, c.paintDraw vcol ecol arg spring = .ok (c', pic)) ↔ (∀ v < n, ∃ x, vcol v = .ok x) ∧
      (∀ e ∈ c.g.adj.edges, ∃ x, ecol e = .ok x) ∧ ∀ d, arg = some d → ∀ v < n, v ∈ Dict.keys d := by
  constructor
  · rintro ⟨c', pic, h⟩
    obtain ⟨-, -, ⟨_, -, h1⟩, ⟨_, -, h2⟩⟩ := paintDraw_ok hm hv he hf ha hs h
    refine ⟨fun v hvn => let ⟨x, hx, _⟩ := h1 v hvn; ⟨x, hx⟩, fun e he' => let ⟨_, x, _, hx, _⟩ := h2 e he'; ⟨x, hx⟩, ?_⟩
    unfold Canvas.paintDraw at h
    split at h
    · cases h
    · rename_i c1 g1
      obtain ⟨a1, a2, a3, a4, a5, a6, a7, -⟩ := paintNodes_ok hm g1 hf
      split at h
      · cases h
      · rename_i c2 g2
        obtain ⟨b1, b2, -⟩ := paintEdges_ok a1 g2 (a5 ▸ he)
        exact (C89_when b1 (n := n) ((b2.trans a2) ▸ hv) ha hs hsp).mp ⟨_, _, h⟩
  · rintro ⟨h1, h2, h3⟩
    obtain ⟨c1, g1⟩ := paintNodes_works hm hv hf (vs := Dict.keys c.g.adj) (fun _ h => h) fun v h => h1 v ((hv.1 v).mp h)
    obtain ⟨a1, a2, a3, a4, a5, a6, a7, -⟩ := paintNodes_ok hm g1 hf
    obtain ⟨c2, g2⟩ := paintEdges_works a1 (a5 ▸ he) (es := c1.g.adj.edges) (fun _ h => h) fun e h => h2 e (a2 ▸ h)
    obtain ⟨b1, b2, -⟩ := paintEdges_ok a1 g2 (a5 ▸ he)
    obtain ⟨c', pic, h⟩ := (C89_when b1 (n := n) ((b2.trans a2) ▸ hv) ha hs hsp).mpr h3
    refine ⟨c', pic, ?_⟩
    unfold Canvas.paintDraw
    rw [g1]
    simp only [g2]
    exact h

theorem typeFill_eq {g : QGraph A} (hg : Built g) (cols : ShowCols C) (pens : Nat → Option C) (t : Int) (v : Nat) :
    typeFill cols pens g t v =
      if OfType g (v, v) t then
        if ∃ k, Dict.get? g.index (v, v) = some k ∧ pens k = none then .error .keyError else .ok cols.highlight
      else .ok cols.vInactive := by
  obtain ⟨i1, -, -, -⟩ := C57_edge_index hg
  unfold typeFill
  by_cases he : (v, v) ∈ g.adj.edges
  · obtain ⟨k, hk⟩ := (i1 (v, v)).mpr he
    obtain ⟨x, hx⟩ := look_of_edge hg he
    simp only at hx
    rw [if_pos (by unfold QGraph.isEdge; rw [hk]; rfl), hx]
    simp only [hk, OfType, hx, he, true_and, Option.bind_some]
    split
    · cases hp : pens k with
      | none => simp [hp]
      | some y => simp [hp]
    · rfl
  · have : g.isEdge (v, v) = false := by
      unfold QGraph.isEdge
      cases hk : Dict.get? g.index (v, v) with
      | none => rfl
      | some k => exact absurd ((i1 (v, v)).mp ⟨k, hk⟩) he
    rw [if_neg (by rw [this]; simp), if_neg fun h => he h.1]

theorem typeLine_eq {g : QGraph A} (hg : Built g) (cols : ShowCols C) (t : Int) {e : Nat × Nat} (he : e ∈ g.adj.edges) :
    typeLine cols g t e = .ok (if OfType g e t then cols.eActive else cols.eInactive) := by
  obtain ⟨x, hx⟩ := look_of_edge hg he
  simp [typeLine, OfType, hx, he]

omit [EmptyCollection A] in
theorem anyActive_eq {g : QGraph A} {act : Nat → Bool} : ∀ {es : List (Nat × Nat)}, (∀ e ∈ es, ∃ k, Dict.get? g.index e = some k) →
    ∃ b, anyActive g act es = .ok b ∧ (b = true ↔ ∃ e ∈ es, ∃ k, Dict.get? g.index e = some k ∧ act k = true)
  | [], _ => ⟨false, rfl, by simp⟩
  | e :: es, h => by
    obtain ⟨k, hk⟩ := h e List.mem_cons_self
    obtain ⟨b, hb, hb'⟩ := anyActive_eq (act := act) fun x hx => h x (List.mem_cons_of_mem _ hx)
    rw [anyActive, hk]
    simp only
    by_cases ha : act k = true
    · rw [if_pos ha]
      exact ⟨true, rfl, by simp only [true_iff]; exact ⟨e, List.mem_cons_self, k, hk, ha⟩⟩
    · rw [if_neg ha]
      refine ⟨b, hb, hb'.trans ⟨?_, ?_⟩⟩
      · rintro ⟨x, hx, hk'⟩; exact ⟨x, List.mem_cons_of_mem _ hx, hk'⟩
      · rintro ⟨x, hx, k', hk', ha'⟩
        rcases List.mem_cons.mp hx with rfl | hx
        · rw [hk, Option.some.injEq] at hk'; subst hk'; exact absurd ha' ha
        · exact ⟨x, hx, k', hk', ha'⟩

open Classical in
theorem activeFill_eq {g : QGraph A} (hg : Built g) (cols : ShowCols C) (act : Nat → Bool) (v : Nat) :
    activeFill cols act g v = .ok (if ActiveInto g act v then cols.vActive else cols.vInactive) := by
  obtain ⟨i1, -, -, -⟩ := C57_edge_index hg
  obtain ⟨b, hb, hb'⟩ := anyActive_eq (g := g) (act := act) (es := g.adj.edges.filter fun e => e.2 = v)
    fun e he => (i1 e).mpr (List.mem_filter.mp he).1
  unfold activeFill
  rw [hb]
  have : b = true ↔ ActiveInto g act v := by
    rw [hb']
    unfold ActiveInto
    simp only [List.mem_filter, decide_eq_true_eq, and_assoc]
  by_cases h : b = true
  · simp only; rw [if_pos h, if_pos (this.mp h)]
  · simp only; rw [if_neg h, if_neg fun h' => h (this.mpr h')]

/-! ## C94 -/

/-- C94. `show_type(t)` draws the graph as it is, with exactly the lines of the edges of type `t` dark and exactly the vertices
that have a loop of type `t` highlighted. -/
theorem C94_show_type {zero : C} {c c' : Canvas A P C} (hm : Made zero c) {n : Nat} (hv : Vertices c.g n) (he : c.ecol.isSome)
    (hf : c.vfill.isSome) {cols : ShowCols C} {pens : Nat → Option C} {t : Int} {arg : Option (Dict Nat P)}
    (ha : ∀ d, arg = some d → Dict.Ok d) {spring : Dict Nat P} (hs : Dict.Ok spring) {pic : Picture P C}
    (h : c.showType cols pens t arg spring = .ok (c', pic)) :
    (∃ c1 : Canvas A P C, Made zero c1 ∧ c1.g = c.g ∧ Shows zero c1 n pic) ∧ c'.g = c.g ∧
    Coloured c.g n pic (fun v => if OfType c.g (v, v) t then cols.highlight else cols.vInactive)
      (fun e => if OfType c.g e t then cols.eActive else cols.eInactive) := by
  have hg := (Inv.of_made hm).built
  obtain ⟨h1, h2, ⟨l, hl, h3⟩, ⟨l', hl', h4⟩⟩ := paintDraw_ok hm hv he hf ha hs h
  refine ⟨h1, h2, ⟨l, hl, fun v hvn => ?_⟩, ⟨l', hl', fun e he' => ?_⟩⟩
  · obtain ⟨x, hx, hx'⟩ := h3 v hvn
    rw [typeFill_eq hg] at hx
    rw [hx']
    split at hx
    · rename_i ht
      split at hx
      · cases hx
      · cases hx; rw [if_pos ht]
    · rename_i ht
      cases hx; rw [if_neg ht]
  · obtain ⟨i, x, hi, hx, hx'⟩ := h4 e he'
    rw [typeLine_eq hg cols t he'] at hx
    cases hx
    exact ⟨i, hi, hx'⟩

/-- C94. `show_type(t)` works exactly when every queue on a loop of type `t` has a colour `vertex_color` (a ResourceQueue has
none by default) and the positions passed, if any, are complete. -/
theorem C94_show_type_when {zero : C} {c : Canvas A P C} (hm : Made zero c) {n : Nat} (hv : Vertices c.g n) (he : c.ecol.isSome)
    (hf : c.vfill.isSome) {cols : ShowCols C} {pens : Nat → Option C} {t : Int} {arg : Option (Dict Nat P)}
    (ha : ∀ d, arg = some d → Dict.Ok d) {spring : Dict Nat P} (hs : Dict.Ok spring) (hsp : ∀ v < n, v ∈ Dict.keys spring) :
    (∃ c' pic, c.showType cols pens t arg spring = .ok (c', pic)) ↔
      (∀ v k, OfType c.g (v, v) t → Dict.get? c.g.index (v, v) = some k → (pens k).isSome) ∧
      ∀ d, arg = some d → ∀ v < n, v ∈ Dict.keys d := by
  have hg := (Inv.of_made hm).built
  unfold Canvas.showType
  rw [paintDraw_iff hm hv he hf ha hs hsp]
  constructor
  · rintro ⟨h1, -, h3⟩
    refine ⟨fun v k ht hk => ?_, h3⟩
    obtain ⟨x, hx⟩ := h1 v ((hv.1 v).mp (mem_edges_src ht.1))
    rw [typeFill_eq hg, if_pos ht] at hx
    split at hx
    · cases hx
    · rename_i hn
      cases hp : pens k with
      | none => exact absurd ⟨k, hk, hp⟩ hn
      | some y => rfl
  · rintro ⟨h1, h3⟩
    refine ⟨fun v _ => ?_, fun e he' => ⟨_, typeLine_eq hg cols t he'⟩, h3⟩
    rw [typeFill_eq hg]
    split
    · rename_i ht
      rw [if_neg]
      · exact ⟨_, rfl⟩
      · rintro ⟨k, hk, hp⟩
        have := h1 v k ht hk
        rw [hp] at this
        cases this
    · exact ⟨_, rfl⟩

open Classical in
/-- C94. `show_active()` draws the graph as it is, with exactly the lines of active queues dark and exactly the vertices
coloured that an edge with an active queue leads to. -/
theorem C94_show_active {zero : C} {c c' : Canvas A P C} (hm : Made zero c) {n : Nat} (hv : Vertices c.g n) (he : c.ecol.isSome)
    (hf : c.vfill.isSome) {cols : ShowCols C} {act : Nat → Bool} {arg : Option (Dict Nat P)}
    (ha : ∀ d, arg = some d → Dict.Ok d) {spring : Dict Nat P} (hs : Dict.Ok spring) {pic : Picture P C}
    (h : c.showActive cols act arg spring = .ok (c', pic)) :
    (∃ c1 : Canvas A P C, Made zero c1 ∧ c1.g = c.g ∧ Shows zero c1 n pic) ∧ c'.g = c.g ∧
    Coloured c.g n pic (fun v => if ActiveInto c.g act v then cols.vActive else cols.vInactive)
      (fun e => if ∃ k, Dict.get? c.g.index e = some k ∧ act k = true then cols.eActive else cols.eInactive) := by
  have hg := (Inv.of_made hm).built
  obtain ⟨h1, h2, ⟨l, hl, h3⟩, ⟨l', hl', h4⟩⟩ := paintDraw_ok hm hv he hf ha hs h
  refine ⟨h1, h2, ⟨l, hl, fun v hvn => ?_⟩, ⟨l', hl', fun e he' => ?_⟩⟩
  · obtain ⟨x, hx, hx'⟩ := h3 v hvn
    rw [activeFill_eq hg] at hx
    cases hx
    exact hx'
  · obtain ⟨i, x, hi, hx, hx'⟩ := h4 e he'
    unfold activeLine at hx
    rw [hi] at hx
    cases hx
    refine ⟨i, hi, hx'.trans ?_⟩
    simp [hi]

/-- C94. `show_active()` works unless positions are passed and one is missing. -/
theorem C94_show_active_when {zero : C} {c : Canvas A P C} (hm : Made zero c) {n : Nat} (hv : Vertices c.g n) (he : c.ecol.isSome)
    (hf : c.vfill.isSome) {cols : ShowCols C} {act : Nat → Bool} {arg : Option (Dict Nat P)}
    (ha : ∀ d, arg = some d → Dict.Ok d) {spring : Dict Nat P} (hs : Dict.Ok spring) (hsp : ∀ v < n, v ∈ Dict.keys spring) :
    (∃ c' pic, c.showActive cols act arg spring = .ok (c', pic)) ↔ ∀ d, arg = some d → ∀ v < n, v ∈ Dict.keys d := by
  have hg := (Inv.of_made hm).built
  unfold Canvas.showActive
  rw [paintDraw_iff hm hv he hf ha hs hsp]
  refine ⟨fun h => h.2.2, fun h => ⟨fun v _ => ⟨_, activeFill_eq hg cols act v⟩, fun e he' => ?_, h⟩⟩
  obtain ⟨k, hk⟩ := ((C57_edge_index hg).1 e).mpr he'
  unfold activeLine
  rw [hk]
  exact ⟨_, rfl⟩

/-! ## A concrete case -/

/-- Two vertices; a loop of type 2 at vertex 1, an edge of type 1 to it and one of type 2 from it. -/
def showGraph : QGraph Unit := .ofAdj [(0, [(1, ⟨some 1, ()⟩)]), (1, [(1, ⟨some 2, ()⟩), (0, ⟨some 2, ()⟩)])]

theorem showGraph_built : Built showGraph := .new ⟨by decide, by decide⟩

theorem showGraph_vertices : Vertices showGraph 2 := by
  refine ⟨fun v => ?_, by decide⟩
  have : Dict.keys showGraph.adj = [0, 1] := by decide
  rw [this]
  simp only [List.mem_cons, List.not_mem_nil, or_false]
  omega

/-- The graph with its arrays, as `_prepare_graph` makes them. -/
def showCanvas : Canvas Unit Nat Nat := ((Canvas.new showGraph []).newVertexFill 0).newEdgeColor 0

theorem showCanvas_made : Made 0 showCanvas :=
  .newEdgeColor (.newVertexFill (.new showGraph_built (by simp [Dict.Ok]) (by simp)))

/-- The hypotheses are met: type 2 is shown, and without a colour `vertex_color` of the queue on the loop there is a
KeyError. -/
theorem C94_met : Made 0 showCanvas ∧ Vertices showCanvas.g 2 ∧ showCanvas.ecol.isSome ∧ showCanvas.vfill.isSome ∧
    (match showCanvas.showType ⟨1, 2, 3, 4, 5⟩ (fun _ => some 6) 2 none [(0, 10), (1, 11)] with
      | .ok (_, pic) => decide (pic.lineCols = some [5, 4, 4] ∧ pic.pointCols = some [3, 1] ∧ pic.points = [10, 11])
      | .error _ => false) = true ∧
    (match showCanvas.showType ⟨1, 2, 3, 4, 5⟩ (fun _ => none) 2 none [(0, 10), (1, 11)] with
      | .ok _ => false
      | .error e => decide (e = .keyError)) = true ∧
    (match showCanvas.showActive ⟨1, 2, 3, 4, 5⟩ (fun k => k == 0) none [(0, 10), (1, 11)] with
      | .ok (_, pic) => decide (pic.lineCols = some [4, 5, 5] ∧ pic.pointCols = some [3, 2])
      | .error _ => false) = true :=
  ⟨showCanvas_made, showGraph_vertices, rfl, rfl, by decide +kernel, by decide +kernel, by decide +kernel⟩

end Verif
