import Verif.Props.GraphGen
import Verif.Props.GraphNet

/-! # Properties C65, C76, C77: types by rank, complete generators -/

namespace Verif.GenSpec

open Verif.UFSpec Verif.GSpec

/-! ## C65 -/

section

variable {K D : Type*} [LinearOrder K] [LinearOrder D]

/-- Vertex `v` is among the `m` first by rank: fewer than `m` vertices have a greater rank. -/
def top (rank : List K) (m : Nat) (v : Nat) : Bool :=
  match rank[v]? with
  | none => false
  | some x => decide (rank.countP (fun y => decide (x < y)) < m)

/-- `v` is the last one in `l` that minimises `f`. -/
def LastMin (f : Nat → D) (l : List Nat) (v : Nat) : Prop :=
  ∃ l1 l2, l = l1 ++ v :: l2 ∧ (∀ w ∈ l1, f v ≤ f w) ∧ ∀ w ∈ l2, f v < f w

omit [LinearOrder K] in
theorem LastMin_unique {f : Nat → D} {l : List Nat} {v w : Nat} (hv : LastMin f l v) (hw : LastMin f l w) : v = w := by
  obtain ⟨l1, l2, rfl, h1, h2⟩ := hv
  obtain ⟨m1, m2, he, h3, h4⟩ := hw
  rcases List.append_eq_append_iff.mp he with ⟨a, ha, hb⟩ | ⟨a, ha, hb⟩
  · cases a with
    | nil => simp only [List.nil_append, List.cons.injEq] at hb; exact hb.1
    | cons x a =>
      simp only [List.cons_append, List.cons.injEq] at hb
      have := h2 w (by rw [hb.2]; simp)
      exact absurd (h3 v (by rw [ha, hb.1]; simp)) (not_le.mpr this)
  · cases a with
    | nil => simp only [List.nil_append, List.cons.injEq] at hb; exact hb.1.symm
    | cons x a =>
      simp only [List.cons_append, List.cons.injEq] at hb
      have := h4 v (by rw [hb.2]; simp)
      exact absurd (h1 w (by rw [ha, hb.1]; simp)) (not_le.mpr this)

omit [LinearOrder D] in
/-- The threshold, for `nDests ≥ 1`. -/
theorem rankBound_spec {rank : List K} {m : Nat} (hm : 1 ≤ m) :
    (rank.length < m → rankBound rank m = none) ∧
    (m ≤ rank.length → ∃ b, rankBound rank m = some b ∧
      ∀ x, b ≤ x ↔ rank.countP (fun y => decide (x < y)) < m) := by
  have hlen : (rank.insertionSort (· ≤ ·)).length = rank.length := List.length_insertionSort ..
  unfold rankBound
  simp only [if_neg (by omega : ¬ m = 0), hlen]
  constructor
  · intro h; rw [if_neg (by omega)]
  · intro h
    rw [if_pos h]
    have hperm := List.perm_insertionSort (· ≤ ·) rank
    have hsort : (rank.insertionSort (· ≤ ·)).Pairwise (· ≤ ·) := List.pairwise_insertionSort _ _
    set tmp := rank.insertionSort (· ≤ ·) with htmp
    have hk : rank.length - m < tmp.length := by omega
    refine ⟨tmp[rank.length - m], List.getElem?_eq_getElem hk, fun x => ?_⟩
    rw [← hperm.countP_eq]
    have hsplit : tmp = tmp.take (rank.length - m) ++ tmp[rank.length - m] :: tmp.drop (rank.length - m + 1) := by
      rw [← List.drop_eq_getElem_cons hk, List.take_append_drop]
    have hdl : (tmp.drop (rank.length - m + 1)).length = m - 1 := by rw [List.length_drop]; omega
    generalize tmp[rank.length - m] = b at hsplit
    generalize tmp.take (rank.length - m) = l1 at hsplit
    generalize tmp.drop (rank.length - m + 1) = l2 at hsplit hdl
    rw [hsplit, List.pairwise_append, List.pairwise_cons] at hsort
    rw [hsplit, List.countP_append, List.countP_cons]
    constructor
    · intro hb
      have h1 : l1.countP (fun y => decide (x < y)) = 0 := by
        rw [List.countP_eq_zero]
        intro y hy
        simp only [decide_eq_true_eq, not_lt]
        exact (hsort.2.2 y hy b (by simp)).trans hb
      have h2 := List.countP_le_length (p := fun y => decide (x < y)) (l := l2)
      rw [h1, if_neg (by simpa using hb)]
      omega
    · intro hc
      by_contra hb
      rw [not_le] at hb
      have h2 : l2.countP (fun y => decide (x < y)) = l2.length := by
        rw [List.countP_eq_length]
        intro y hy
        simp only [decide_eq_true_eq]
        exact hb.trans_le (hsort.2.1.1 y hy)
      rw [h2, if_pos (by simpa using hb)] at hc
      omega

omit [LinearOrder D] in
theorem mem_rankDests {rank : List K} {b : K} {v : Nat} :
    v ∈ rankDests rank b ↔ ∃ x, rank[v]? = some x ∧ b ≤ x := by
  unfold rankDests
  rw [List.mem_filter, List.mem_range]
  constructor
  · rintro ⟨hv, h⟩
    rw [List.getElem?_eq_getElem hv] at h ⊢
    exact ⟨_, rfl, by simpa using h⟩
  · rintro ⟨x, hx, hb⟩
    exact ⟨(List.getElem?_eq_some_iff.mp hx).1, by rw [hx]; simpa using hb⟩

/-- The state of the search after the vertices in `l`. -/
def Searched [OrderTop D] (dist : Nat → Nat → D) (l : List Nat) (s : Near D) : Prop :=
  ∀ k, (l = [] ∧ s.best k = ⊤) ∨ (LastMin (dist · k) l (s.ind k) ∧ s.best k = dist (s.ind k) k)

theorem nearest_spec [OrderTop D] {dests : List Nat} {dist : Nat → Nat → D} (vs : List Nat) : ∀ {l : List Nat} {s : Near D},
    Searched dist l s → Searched dist (l ++ vs.filter (fun v => decide (v ∉ dests))) (nearest dests dist vs s) := by
  induction vs with
  | nil => intro l s h; simpa [nearest] using h
  | cons v vs ih =>
    intro l s h
    unfold nearest
    by_cases hv : v ∈ dests
    · rw [if_pos hv]
      simpa [hv] using ih h
    · rw [if_neg hv]
      have := ih (l := l ++ [v]) (s := ⟨fun k => min (dist v k) (s.best k), fun k =>
        if min (dist v k) (s.best k) = dist v k then v else s.ind k⟩) (by
        intro k
        refine .inr ?_
        simp only
        by_cases hle : dist v k ≤ s.best k
        · rw [min_eq_left hle, if_pos rfl]
          refine ⟨⟨l, [], rfl, fun w hw => ?_, by simp⟩, rfl⟩
          rcases h k with ⟨rfl, -⟩ | ⟨⟨l1, l2, hl, ha, hb⟩, hbest⟩
          · simp at hw
          · rw [hbest] at hle
            rw [hl] at hw
            simp only [List.mem_append, List.mem_cons] at hw
            rcases hw with hw | rfl | hw
            · exact hle.trans (ha w hw)
            · exact hle
            · exact hle.trans (hb w hw).le
        · rw [not_le] at hle
          rw [min_eq_right hle.le, if_neg hle.ne]
          rcases h k with ⟨-, htop⟩ | ⟨⟨l1, l2, hl, ha, hb⟩, hbest⟩
          · rw [htop] at hle; exact absurd hle not_top_lt
          · refine ⟨⟨l1, l2 ++ [v], by simp [hl], ha, fun w hw => ?_⟩, hbest⟩
            rw [hbest] at hle
            simp only [List.mem_append, List.mem_singleton] at hw
            rcases hw with hw | rfl
            exacts [hb w hw, hle])
      simpa [hv] using this

omit [LinearOrder K] [LinearOrder D] in
theorem mem_fcqs {n : Nat} {s : Near D} {v : Nat} : v ∈ fcqs n s ↔ ∃ k < n, s.ind k = v := by
  have hlen : (((List.range n).map s.ind).dedup.insertionSort (· ≤ ·)).length ≤ n := by
    rw [List.length_insertionSort]
    exact (List.dedup_sublist _).length_le.trans (by simp)
  unfold fcqs
  simp only
  rw [min_eq_right hlen, List.take_length, List.mem_insertionSort, List.mem_dedup, List.mem_map]
  simp

end

section

variable {A : Type*} [EmptyCollection A]

theorem isEdge_iff {g : QGraph A} (hg : Built g) (e : Nat × Nat) : g.isEdge e = true ↔ e ∈ g.adj.edges :=
  (Numbered.of_built hg).edges e

/-- Adding a loop at a vertex where there is none. -/
theorem addLoop_spec {g : QGraph A} (hg : Built g) {v : Nat} (hv : v ∈ Dict.keys g.adj) :
    let g' := if g.isEdge (v, v) = false then g.addEdge v v else g
    Built g' ∧ (∀ w, w ∈ Dict.keys g'.adj ↔ w ∈ Dict.keys g.adj) ∧
    (∀ e k, Dict.get? g.index e = some k → Dict.get? g'.index e = some k) ∧
    ∀ i j, g'.adj.look i j = if i = v ∧ j = v then (g.adj.look i j).or (some ⟨none, ∅⟩) else g.adj.look i j := by
  have hn := Numbered.of_built hg
  have hsome := Adj.mem_edges (u := v) (v := v) hn.ok
  by_cases he : g.isEdge (v, v) = false
  · simp only [he, if_true]
    have hne : ¬ (g.adj.look v v).isSome := by
      rw [← hsome, ← isEdge_iff hg, he]; simp
    have hadj : (g.addEdge v v).adj = g.adj.addEdge v v ⟨none, ∅⟩ := by
      unfold QGraph.addEdge; simp only [hne, Bool.false_eq_true, if_false]; split <;> rfl
    refine ⟨.add v v hg, fun w => ?_, (C57_add_edge hg v v).2.1, fun i j => ?_⟩
    · rw [hadj, keys_addEdge]
      constructor
      · rintro (rfl | rfl | h)
        exacts [hv, hv, h]
      · exact fun h => .inr (.inr h)
    · rw [hadj, look_addEdge]
      split
      · rename_i h
        rw [h.1, h.2]
        have : g.adj.look v v = none := by simpa using hne
        rw [this]; rfl
      · rfl
  · have he' : g.isEdge (v, v) = true := by simpa using he
    simp only [he', Bool.true_eq_false, if_false]
    refine ⟨hg, fun w => by simp, fun e k h => h, fun i j => ?_⟩
    split
    · rename_i h
      rw [h.1, h.2]
      obtain ⟨x, hx⟩ := Option.isSome_iff_exists.mp (hsome.mp ((isEdge_iff hg _).mp he'))
      rw [hx]; rfl
    · rfl

/-- `g'` is `g` with loops at the vertices with property `p`. -/
structure Looped (p : Nat → Prop) [DecidablePred p] (g g' : QGraph A) : Prop where
  built : Built g'
  keys : ∀ w, w ∈ Dict.keys g'.adj ↔ w ∈ Dict.keys g.adj
  index : ∀ e k, Dict.get? g.index e = some k → Dict.get? g'.index e = some k
  look : ∀ i j, g'.adj.look i j = if i = j ∧ p i then (g.adj.look i j).or (some ⟨none, ∅⟩) else g.adj.look i j

theorem addTypeLoops_spec (dests fc : List Nat) (vs : List Nat) : ∀ {g : QGraph A} {lt : Dict Nat Int}, Built g →
    (∀ v ∈ vs, v ∈ Dict.keys g.adj) →
    Looped (fun v => v ∈ vs ∧ (v ∈ dests ∨ v ∈ fc)) g (addTypeLoops dests fc vs (g, lt)).1 ∧
    ∀ v, Dict.get? (addTypeLoops dests fc vs (g, lt)).2 v =
      if v ∈ vs ∧ v ∈ dests then some 3 else if v ∈ vs ∧ v ∈ fc then some 2 else Dict.get? lt v := by
  induction vs with
  | nil =>
    intro g lt hg _
    exact ⟨⟨hg, fun _ => Iff.rfl, fun _ _ h => h, fun i j => by simp [addTypeLoops]⟩, fun v => by simp [addTypeLoops]⟩
  | cons v vs ih =>
    intro g lt hg hvs
    have hv := hvs v (by simp)
    have key : ∀ {g1 : QGraph A} {lt1 : Dict Nat Int} (q : Prop) [Decidable q], Built g1 →
        (∀ w, w ∈ Dict.keys g1.adj ↔ w ∈ Dict.keys g.adj) →
        (∀ e k, Dict.get? g.index e = some k → Dict.get? g1.index e = some k) →
        (∀ i j, g1.adj.look i j = if i = v ∧ j = v ∧ q then (g.adj.look i j).or (some ⟨none, ∅⟩) else g.adj.look i j) →
        (q ↔ v ∈ dests ∨ v ∈ fc) →
        (∀ w, Dict.get? lt1 w = if w = v ∧ v ∈ dests then some 3 else if w = v ∧ v ∈ fc then some 2 else Dict.get? lt w) →
        Looped (fun w => w ∈ v :: vs ∧ (w ∈ dests ∨ w ∈ fc)) g (addTypeLoops dests fc vs (g1, lt1)).1 ∧
        ∀ w, Dict.get? (addTypeLoops dests fc vs (g1, lt1)).2 w =
          if w ∈ v :: vs ∧ w ∈ dests then some 3 else if w ∈ v :: vs ∧ w ∈ fc then some 2 else Dict.get? lt w := by
      intro g1 lt1 q _ hb hk hi hl hq hlt
      obtain ⟨hL, h2⟩ := ih (g := g1) (lt := lt1) hb (fun w hw => (hk w).mpr (hvs w (by simp [hw])))
      refine ⟨⟨hL.built, fun w => (hL.keys w).trans (hk w), fun e k h => hL.index e k (hi e k h), fun i j => ?_⟩, fun w => ?_⟩
      · rw [hL.look, hl]
        by_cases hij : i = j
        · subst hij
          by_cases hiv : i = v
          · subst hiv
            by_cases hqq : q
            · have := hq.mp hqq
              cases g.adj.look i i <;> simp [hqq, this]
            · have : ¬ (i ∈ dests ∨ i ∈ fc) := fun h => hqq (hq.mpr h)
              simp only [hqq, this, and_false, if_false]
          · simp [hiv]
        · have : ¬ (i = v ∧ j = v ∧ q) := by rintro ⟨h1, h2, -⟩; exact hij (h1.trans h2.symm)
          simp [hij, this]
      · rw [h2, hlt]
        by_cases hw : w = v
        · subst hw
          by_cases h3 : w ∈ dests
          · by_cases h5 : w ∈ vs <;> by_cases h6 : w ∈ fc <;> simp [h3, h5, h6]
          · by_cases h4 : w ∈ fc <;> simp [h3, h4]
        · simp [hw]
    obtain ⟨a1, a2, a3, a4⟩ := addLoop_spec hg hv
    unfold addTypeLoops
    by_cases hd : v ∈ dests
    · simp only [hd, if_true]
      refine key True a1 a2 a3 (fun i j => by rw [a4]; simp) (by simp [hd]) (fun w => ?_)
      rw [Dict.get?_set]
      by_cases hw : w = v <;> simp [hd, hw]
    · by_cases hf : v ∈ fc
      · simp only [hd, hf, if_true, if_false]
        refine key True a1 a2 a3 (fun i j => by rw [a4]; simp) (by simp [hf]) (fun w => ?_)
        rw [Dict.get?_set]; simp [hd, hf]
      · simp only [hd, hf, if_false]
        exact key False hg (fun _ => Iff.rfl) (fun _ _ h => h) (fun i j => by simp) (by simp [hd, hf])
          (fun w => by simp [hd, hf])

theorem setEach_spec (t : Int) (es : List (Nat × Nat)) : ∀ {g : QGraph A}, Built g →
    (∀ e ∈ es, (g.adj.look e.1 e.2).isSome) →
    ∃ g', setEach t es g = .ok g' ∧ Built g' ∧ Dict.keys g'.adj = Dict.keys g.adj ∧ g'.index = g.index ∧
      ∀ i j, g'.adj.look i j = (g.adj.look i j).map fun x => if (i, j) ∈ es then { x with etype := some t } else x := by
  induction es with
  | nil => intro g hg _; exact ⟨g, rfl, hg, rfl, rfl, fun i j => by cases g.adj.look i j <;> rfl⟩
  | cons e es ih =>
    intro g hg hl
    obtain ⟨x, hx⟩ := Option.isSome_iff_exists.mp (hl e (by simp))
    obtain ⟨g1, h1, -, hk, hi, -, hlk⟩ := (setEp_spec (Numbered.of_built hg).ok e t).2 x hx
    obtain ⟨g', h1', hb', hk', hi', hl'⟩ := ih (g := g1) (.ep e t hg h1) (by
      intro e' he'
      rw [hlk]
      split
      · rfl
      · exact hl e' (by simp [he']))
    refine ⟨g', by simp only [setEach, h1, h1'], hb', hk'.trans hk, hi'.trans hi, fun i j => ?_⟩
    rw [hl', hlk]
    by_cases hij : i = e.1 ∧ j = e.2
    · simp only [hij, and_self, if_true, Option.map_some, hx, Prod.mk.eta, List.mem_cons, true_or]
      split <;> rfl
    · have hij' : ¬ (i, j) = e := by rintro rfl; exact hij ⟨rfl, rfl⟩
      simp only [hij, if_false, List.mem_cons, hij', false_or]

theorem setLoopTypes_spec {lt : Dict Nat Int} (vs : List Nat) : ∀ {g : QGraph A}, Built g →
    (∀ v ∈ vs, Dict.get? lt v = some 2 ∨ Dict.get? lt v = some 3 → (g.adj.look v v).isSome) →
    ∃ g', setLoopTypes lt vs g = .ok g' ∧ Built g' ∧ Dict.keys g'.adj = Dict.keys g.adj ∧ g'.index = g.index ∧
      ∀ i j, g'.adj.look i j = (g.adj.look i j).map fun x =>
        if i = j ∧ i ∈ vs ∧ (Dict.get? lt i = some 2 ∨ Dict.get? lt i = some 3) then { x with etype := Dict.get? lt i } else x := by
  induction vs with
  | nil => intro g hg _; exact ⟨g, rfl, hg, rfl, rfl, fun i j => by cases g.adj.look i j <;> simp⟩
  | cons v vs ih =>
    intro g hg hl
    unfold setLoopTypes
    by_cases hv : Dict.get? lt v = some 2 ∨ Dict.get? lt v = some 3
    · rw [if_pos hv]
      obtain ⟨x, hx⟩ := Option.isSome_iff_exists.mp (hl v (by simp) hv)
      have ht : some (if Dict.get? lt v = some 2 then (2 : Int) else 3) = Dict.get? lt v := by
        rcases hv with h | h <;> simp [h]
      obtain ⟨g1, h1, -, hk, hi, -, hlk⟩ := (setEp_spec (Numbered.of_built hg).ok (v, v)
        (if Dict.get? lt v = some 2 then (2 : Int) else 3)).2 x hx
      obtain ⟨g', h1', hb', hk', hi', hl'⟩ := ih (g := g1) (.ep _ _ hg h1) (by
        intro w hw h
        rw [hlk]
        split
        · rfl
        · exact hl w (by simp [hw]) h)
      refine ⟨g', by simp only [h1, h1'], hb', hk'.trans hk, hi'.trans hi, fun i j => ?_⟩
      rw [hl', hlk]
      by_cases hij : i = v ∧ j = v
      · obtain ⟨rfl, rfl⟩ := hij
        simp only [and_self, if_true, Option.map_some, hx, true_and, List.mem_cons, true_or, hv, ht]
        split <;> rfl
      · simp only [hij, if_false]
        by_cases hiv : i = v
        · subst hiv
          have : ¬ i = j := fun h => hij ⟨rfl, h.symm⟩
          simp [this]
        · simp [hiv]
    · rw [if_neg hv]
      obtain ⟨g', h1', hb', hk', hi', hl'⟩ := ih (g := g) hg (fun w hw h => hl w (by simp [hw]) h)
      refine ⟨g', h1', hb', hk', hi', fun i j => ?_⟩
      rw [hl']
      by_cases hiv : i = v
      · subst hiv; simp [hv]
      · simp [hiv]

variable {K D : Type*} [LinearOrder K] [LinearOrder D] [OrderTop D]

/-- The vertex is the one (the last one, if there are several) that is nearest to one of the `n` random points among the
vertices that are not first by rank. -/
def Chosen (g : QGraph A) (rank : List K) (m n : Nat) (dist : Nat → Nat → D) (v : Nat) : Prop :=
  ∃ k < n, LastMin (dist · k) ((Dict.keys g.adj).filter fun w => !top rank m w) v

open Classical in
/-- The type that an edge gets. -/
noncomputable def typeOf (g : QGraph A) (rank : List K) (m n : Nat) (dist : Nat → Nat → D) (i j : Nat) : Int :=
  if i = j ∧ top rank m i = true then 3 else if i = j ∧ Chosen g rank m n dist i then 2 else 1

/-- C65. `set_types_rank` with `nDests ≥ 1`: the vertices first by rank have a loop of type 3, the chosen near vertices a
loop of type 2, all other edges have type 1; no other edges are added and no numbers changed. -/
theorem C65_rank {g : QGraph A} (hg : Built g) {rank : List K} {m n : Nat} (hm : 1 ≤ m) {dist : Nat → Nat → D} {g' : QGraph A}
    (h : setTypesRank g rank m n dist = .ok g') :
    Built g' ∧ (∀ v, v ∈ Dict.keys g'.adj ↔ v ∈ Dict.keys g.adj) ∧
    (∀ e k, Dict.get? g.index e = some k → Dict.get? g'.index e = some k) ∧
    (∀ i j, (i, j) ∈ g'.adj.edges ↔ (i, j) ∈ g.adj.edges ∨ (i = j ∧ i ∈ Dict.keys g.adj ∧
      (top rank m i = true ∨ Chosen g rank m n dist i))) ∧
    ∀ i j x, g'.adj.look i j = some x → x.etype = some (typeOf g rank m n dist i j) ∧
      ∀ y, g.adj.look i j = some y → x.rest = y.rest := by
  unfold setTypesRank at h
  cases hb : rankBound rank m with
  | none => rw [hb] at h; simp at h
  | some b =>
    rw [hb] at h
    simp only at h
    obtain ⟨hb1, hb2⟩ := rankBound_spec (rank := rank) hm
    have hmr : m ≤ rank.length := by
      by_contra hlt
      rw [hb1 (by omega)] at hb; simp at hb
    obtain ⟨b', hb', hbound⟩ := hb2 hmr
    rw [hb] at hb'
    simp only [Option.some.injEq] at hb'
    subst hb'
    have htop : ∀ v, v ∈ rankDests rank b ↔ top rank m v = true := by
      intro v
      rw [mem_rankDests]
      unfold top
      cases rank[v]? with
      | none => simp
      | some x => simp [hbound]
    set dests := rankDests rank b with hdests
    split at h
    · simp at h
    rename_i hnod
    set near := nearest dests dist (Dict.keys g.adj) ⟨fun _ => ⊤, fun _ => 1⟩ with hnear
    set fc := fcqs n near with hfc
    have hsearch : Searched dist ((Dict.keys g.adj).filter fun w => !top rank m w) near := by
      have := nearest_spec (dests := dests) (dist := dist) (Dict.keys g.adj) (l := [])
        (s := ⟨fun _ => ⊤, fun _ => 1⟩) (fun k => .inl ⟨rfl, rfl⟩)
      rw [List.nil_append] at this
      have heq : (Dict.keys g.adj).filter (fun w => !top rank m w) = (Dict.keys g.adj).filter fun v => decide (v ∉ dests) := by
        refine List.filter_congr fun v _ => ?_
        by_cases hv : v ∈ dests
        · simp [hv, (htop v).mp hv]
        · have : top rank m v = false := by
            cases ht : top rank m v with
            | false => rfl
            | true => exact absurd ((htop v).mpr ht) hv
          simp [hv, this]
      rw [heq]; exact this
    have hchosen : ∀ v ∈ Dict.keys g.adj, v ∉ dests → (v ∈ fc ↔ Chosen g rank m n dist v) := by
      intro v hv hvd
      have hne : ((Dict.keys g.adj).filter fun w => !top rank m w) ≠ [] := by
        intro hnil
        have : v ∈ (Dict.keys g.adj).filter fun w => !top rank m w := by
          rw [List.mem_filter]
          refine ⟨hv, ?_⟩
          cases ht : top rank m v with
          | false => rfl
          | true => exact absurd ((htop v).mpr ht) hvd
        rw [hnil] at this; simp at this
      have hmin : ∀ k, LastMin (dist · k) ((Dict.keys g.adj).filter fun w => !top rank m w) (near.ind k) := by
        intro k
        rcases hsearch k with ⟨h', -⟩ | ⟨h', -⟩
        · exact absurd h' hne
        · exact h'
      rw [hfc, mem_fcqs]
      constructor
      · rintro ⟨k, hk, rfl⟩; exact ⟨k, hk, hmin k⟩
      · rintro ⟨k, hk, hl⟩
        refine ⟨k, hk, ?_⟩
        have hnd : ((Dict.keys g.adj).filter fun w => !top rank m w).Nodup :=
          List.Nodup.filter _ (Numbered.of_built hg).ok.1
        exact LastMin_unique (hmin k) hl
    obtain ⟨hL, hlt⟩ := addTypeLoops_spec dests fc (Dict.keys g.adj) (g := g) (lt := []) hg (fun _ h => h)
    set s := addTypeLoops dests fc (Dict.keys g.adj) (g, []) with hs
    have hok := (Numbered.of_built hL.built).ok
    obtain ⟨c1, c2, c3⟩ := clearTypes_spec hok
    obtain ⟨g1, hg1, hb1', hk1, hi1, hl1⟩ := setEach_spec 1 s.1.newEdgeType.adj.edges (g := s.1.newEdgeType) (.prop hL.built)
      (fun e he => (Adj.mem_edges (g := s.1.newEdgeType.adj) c1).mp he)
    rw [hg1] at h
    simp only at h
    have hk1' : Dict.keys g1.adj = Dict.keys s.1.adj := hk1.trans c2
    have hl1' : ∀ i j, g1.adj.look i j = (s.1.adj.look i j).map fun x => { x with etype := some 1 } := by
      intro i j
      rw [hl1]
      have hcl : s.1.newEdgeType.adj.look i j = (s.1.adj.look i j).map fun x => { x with etype := none } := c3 i j
      cases hx : s.1.adj.look i j with
      | none => rw [hcl, hx]; rfl
      | some x =>
        have : (i, j) ∈ s.1.newEdgeType.adj.edges := by
          rw [Adj.mem_edges (g := s.1.newEdgeType.adj) c1, hcl, hx]; rfl
        rw [hcl, hx]; simp [this]
    have hltk : ∀ v, (Dict.get? s.2 v = some 2 ∨ Dict.get? s.2 v = some 3) ↔
        v ∈ Dict.keys g.adj ∧ (v ∈ dests ∨ v ∈ fc) := by
      intro v
      rw [hlt]
      by_cases h1 : v ∈ Dict.keys g.adj
      · by_cases h2 : v ∈ dests
        · simp [h1, h2]
        · by_cases h3 : v ∈ fc <;> simp [h1, h2, h3, Dict.get?]
      · simp [h1, Dict.get?]
    obtain ⟨g2, hg2, hb2', hk2, hi2, hl2⟩ := setLoopTypes_spec (lt := s.2) (Dict.keys g1.adj) (g := g1) hb1' (by
      intro v hv hv2
      have := (hltk v).mp hv2
      rw [hl1', hL.look]
      simp only [this, and_self, if_true]
      cases g.adj.look v v <;> rfl)
    rw [hg2] at h
    simp only [Except.ok.injEq] at h
    subst h
    have hkeys : ∀ v, v ∈ Dict.keys g2.adj ↔ v ∈ Dict.keys g.adj := by
      intro v; rw [hk2, hk1', hL.keys]
    have hwho : ∀ v ∈ Dict.keys g.adj, (v ∈ dests ∨ v ∈ fc) ↔ (top rank m v = true ∨ Chosen g rank m n dist v) := by
      intro v hv
      by_cases hd : v ∈ dests
      · simp [hd, (htop v).mp hd]
      · have : ¬ top rank m v = true := fun ht => hd ((htop v).mpr ht)
        simp [hd, this, hchosen v hv hd]
    refine ⟨hb2', hkeys, ?_, fun i j => ?_, fun i j x hx => ?_⟩
    · intro e k hek
      rw [hi2, hi1]
      exact hL.index e k hek
    · rw [Adj.mem_edges (Numbered.of_built hb2').ok, Adj.mem_edges (Numbered.of_built hg).ok, hl2, Option.isSome_map, hl1',
        Option.isSome_map, hL.look]
      by_cases hij : i = j
      · subst hij
        by_cases hv : i ∈ Dict.keys g.adj
        · by_cases hw : i ∈ dests ∨ i ∈ fc
          · have := (hwho i hv).mp hw
            simp only [hv, hw, this, and_self, if_true, or_true, iff_true]
            cases g.adj.look i i <;> rfl
          · have : ¬ (top rank m i = true ∨ Chosen g rank m n dist i) := fun h => hw ((hwho i hv).mpr h)
            simp only [hw, this, and_false, if_false, or_false]
        · simp [hv]
      · simp [hij]
    · rw [hl2, hl1', hL.look] at hx
      have hrest : ∀ y, g.adj.look i j = some y → x.rest = y.rest := by
        intro y hy
        rw [hy] at hx
        have hor : (if i = j ∧ i ∈ Dict.keys g.adj ∧ (i ∈ dests ∨ i ∈ fc) then (some y).or (some ⟨none, ∅⟩) else some y) = some y := by
          split <;> rfl
        rw [hor] at hx
        simp only [Option.map_some, Option.some.injEq] at hx
        subst hx
        split <;> rfl
      refine ⟨?_, hrest⟩
      obtain ⟨y, hy, hx⟩ := Option.map_eq_some_iff.mp hx
      obtain ⟨z, hz, hy⟩ := Option.map_eq_some_iff.mp hy
      subst hx
      subst hy
      unfold typeOf
      by_cases hij : i = j
      · subst hij
        have hik : i ∈ Dict.keys g.adj := by
          by_contra hno
          simp only [hno, false_and, and_false, if_false] at hz
          have := Adj.look_isSome_key hz
          exact hno this
        have hik1 : i ∈ Dict.keys g1.adj := by rw [hk1', hL.keys]; exact hik
        by_cases hd : i ∈ dests
        · have h3 : Dict.get? s.2 i = some 3 := by rw [hlt]; simp [hik, hd]
          simp [hik1, h3, (htop i).mp hd]
        · have hnt : ¬ top rank m i = true := fun ht => hd ((htop i).mpr ht)
          by_cases hf : i ∈ fc
          · have h2 : Dict.get? s.2 i = some 2 := by rw [hlt]; simp [hik, hd, hf]
            simp [hik1, h2, hnt, (hchosen i hik hd).mp hf]
          · have h0 : ¬ (Dict.get? s.2 i = some 2 ∨ Dict.get? s.2 i = some 3) := by
              rw [hltk]; simp [hd, hf]
            have hnc : ¬ Chosen g rank m n dist i := fun hc => hf ((hchosen i hik hd).mpr hc)
            simp [h0, hnt, hnc]
      · simp [hij]

/-- C65. When `set_types_rank` with `nDests ≥ 1` succeeds. -/
theorem C65_when {g : QGraph A} (hg : Built g) {rank : List K} {m n : Nat} (hm : 1 ≤ m) {dist : Nat → Nat → D} :
    (rank.length < m → setTypesRank g rank m n dist = .error .indexError) ∧
    (m ≤ rank.length → (∃ v, top rank m v = true ∧ v ∉ Dict.keys g.adj) → setTypesRank g rank m n dist = .error .keyError) ∧
    (m ≤ rank.length → (∀ v, top rank m v = true → v ∈ Dict.keys g.adj) → ∃ g', setTypesRank g rank m n dist = .ok g') := by
  obtain ⟨hb1, hb2⟩ := rankBound_spec (rank := rank) hm
  have htop : m ≤ rank.length → ∃ b, rankBound rank m = some b ∧ ∀ v, v ∈ rankDests rank b ↔ top rank m v = true := by
    intro hmr
    obtain ⟨b, hb, hbound⟩ := hb2 hmr
    refine ⟨b, hb, fun v => ?_⟩
    rw [mem_rankDests]
    unfold top
    cases rank[v]? with
    | none => simp
    | some x => simp [hbound]
  refine ⟨fun h => ?_, fun h hv => ?_, fun h hv => ?_⟩
  · unfold setTypesRank; rw [hb1 h]
  · obtain ⟨b, hb, ht⟩ := htop h
    obtain ⟨v, h1, h2⟩ := hv
    unfold setTypesRank
    rw [hb]
    simp only
    rw [if_pos ⟨v, (ht v).mpr h1, h2⟩]
  · obtain ⟨b, hb, ht⟩ := htop h
    unfold setTypesRank
    rw [hb]
    simp only
    rw [if_neg (by rintro ⟨v, h1, h2⟩; exact h2 (hv v ((ht v).mp h1)))]
    generalize rankDests rank b = dests
    generalize fcqs n (nearest dests dist (Dict.keys g.adj) ⟨fun _ => ⊤, fun _ => 1⟩) = fc
    obtain ⟨hL, hlt⟩ := addTypeLoops_spec dests fc (Dict.keys g.adj) (g := g) (lt := []) hg (fun _ h => h)
    generalize addTypeLoops dests fc (Dict.keys g.adj) (g, []) = s at hL hlt
    obtain ⟨c1, c2, c3⟩ := clearTypes_spec (Numbered.of_built hL.built).ok
    obtain ⟨g1, hg1, hb1', hk1, hi1, hl1⟩ := setEach_spec 1 s.1.newEdgeType.adj.edges (g := s.1.newEdgeType) (.prop hL.built)
      (fun e he => (Adj.mem_edges (g := s.1.newEdgeType.adj) c1).mp he)
    rw [hg1]
    simp only
    obtain ⟨g2, hg2, -⟩ := setLoopTypes_spec (lt := s.2) (Dict.keys g1.adj) (g := g1) hb1' (by
      intro v hv hv2
      have : v ∈ Dict.keys g.adj ∧ (v ∈ dests ∨ v ∈ fc) := by
        rw [hlt] at hv2
        by_cases h1 : v ∈ Dict.keys g.adj
        · by_cases h2 : v ∈ dests
          · exact ⟨h1, .inl h2⟩
          · by_cases h3 : v ∈ fc
            · exact ⟨h1, .inr h3⟩
            · simp [h1, h2, h3, Dict.get?] at hv2
        · simp [h1, Dict.get?] at hv2
      have hcl : s.1.newEdgeType.adj.look v v = (s.1.adj.look v v).map fun x => { x with etype := none } := c3 v v
      rw [hl1, hcl, hL.look]
      simp only [this, and_self, if_true]
      cases g.adj.look v v <;> rfl)
    exact ⟨g2, hg2⟩

omit [LinearOrder K] in
theorem countP_range_get (rank : List K) (p : K → Bool) :
    (List.range rank.length).countP (fun v => match rank[v]? with | some x => p x | none => false) = rank.countP p := by
  induction rank with
  | nil => rfl
  | cons a rank ih =>
    rw [List.length_cons, List.range_succ_eq_map, List.countP_cons, List.countP_map, List.countP_cons, ← ih]
    rfl

omit [EmptyCollection A] [LinearOrder D] [OrderTop D] in
/-- C65. If all ranks differ, exactly `nDests` vertices are first by rank; with ties there can be more. -/
theorem C65_how_many {rank : List K} {m : Nat} (hm : 1 ≤ m) (hmr : m ≤ rank.length) :
    m ≤ (List.range rank.length).countP (top rank m) ∧
    (rank.Nodup → (List.range rank.length).countP (top rank m) = m) := by
  obtain ⟨b, hb, hbound⟩ := (rankBound_spec (rank := rank) hm).2 hmr
  have h1 : (List.range rank.length).countP (top rank m) = rank.countP (fun x => decide (b ≤ x)) := by
    rw [← countP_range_get rank]
    refine List.countP_congr fun v _ => ?_
    unfold top
    cases rank[v]? with
    | none => simp
    | some x => simp [hbound]
  rw [h1]
  have hlen : (rank.insertionSort (· ≤ ·)).length = rank.length := List.length_insertionSort ..
  have hperm := List.perm_insertionSort (· ≤ ·) rank
  have hsort : (rank.insertionSort (· ≤ ·)).Pairwise (· ≤ ·) := List.pairwise_insertionSort _ _
  unfold rankBound at hb
  simp only [if_neg (by omega : ¬ m = 0), hlen, if_pos hmr] at hb
  rw [← hperm.countP_eq, ← hperm.nodup_iff]
  generalize rank.insertionSort (· ≤ ·) = tmp at *
  have hk : rank.length - m < tmp.length := by omega
  rw [List.getElem?_eq_getElem hk, Option.some.injEq] at hb
  have hsplit : tmp = tmp.take (rank.length - m) ++ b :: tmp.drop (rank.length - m + 1) := by
    rw [← hb, ← List.drop_eq_getElem_cons hk, List.take_append_drop]
  have hdl : (tmp.drop (rank.length - m + 1)).length = m - 1 := by rw [List.length_drop]; omega
  generalize tmp.take (rank.length - m) = l1 at hsplit
  generalize tmp.drop (rank.length - m + 1) = l2 at hsplit hdl
  subst hsplit
  rw [List.pairwise_append, List.pairwise_cons] at hsort
  have h2 : l2.countP (fun x => decide (b ≤ x)) = l2.length := by
    rw [List.countP_eq_length]
    intro y hy
    simpa using hsort.2.1.1 y hy
  rw [List.countP_append, List.countP_cons, h2, if_pos (by simp)]
  refine ⟨by omega, fun hnd => ?_⟩
  have h3 : l1.countP (fun x => decide (b ≤ x)) = 0 := by
    rw [List.countP_eq_zero]
    intro y hy
    simp only [decide_eq_true_eq, not_le]
    refine lt_of_le_of_ne (hsort.2.2 y hy b (by simp)) ?_
    rintro rfl
    exact (List.nodup_append.mp hnd).2.2 y hy y (by simp) rfl
  omega

/-- C65 (finding F26): `pType2 = 0` is like `pType2 = 1`: every vertex is first by rank. -/
theorem C65_zero (g : QGraph A) {rank : List K} (hr : rank ≠ []) (n : Nat) (dist : Nat → Nat → D) :
    setTypesRank g rank 0 n dist = setTypesRank g rank rank.length n dist := by
  have : rankBound rank 0 = rankBound rank rank.length := by
    unfold rankBound
    have h0 : rank.length ≠ 0 := by simpa using hr
    simp [h0, List.length_insertionSort]
  unfold setTypesRank
  rw [this]

omit [EmptyCollection A] [LinearOrder D] [OrderTop D] in
theorem top_length (rank : List K) (v : Nat) : top rank rank.length v = true ↔ v < rank.length := by
  unfold top
  constructor
  · intro h
    by_contra hv
    rw [List.getElem?_eq_none (by omega)] at h
    simp at h
  · intro hv
    rw [List.getElem?_eq_getElem hv]
    simp only [decide_eq_true_eq]
    refine lt_of_le_of_ne List.countP_le_length fun h => ?_
    rw [List.countP_eq_length] at h
    simpa using h rank[v] (List.getElem_mem hv)

/-! ## C76, C77 -/

section

variable {F : Type*} [Field F] [LinearOrder F] [IsStrictOrderedRing F]

omit [Field F] [IsStrictOrderedRing F] in
theorem addRandomLoops_spec (p : F) (rnd : Nat → F) (vs : List Nat) : ∀ {g : QGraph A}, Built g →
    (∀ v ∈ vs, v ∈ Dict.keys g.adj) →
    Looped (fun v => v ∈ vs ∧ rnd v < p) g (addRandomLoops p rnd vs g) := by
  induction vs with
  | nil => intro g hg _; exact ⟨hg, fun _ => Iff.rfl, fun _ _ h => h, fun i j => by simp [addRandomLoops]⟩
  | cons v vs ih =>
    intro g hg hvs
    obtain ⟨a1, a2, a3, a4⟩ := addLoop_spec hg (hvs v (by simp))
    unfold addRandomLoops
    by_cases hp : rnd v < p
    · simp only [hp, if_true]
      have hL := ih a1 (fun w hw => (a2 w).mpr (hvs w (by simp [hw])))
      refine ⟨hL.built, fun w => (hL.keys w).trans (a2 w), fun e k h => hL.index e k (a3 e k h), fun i j => ?_⟩
      rw [hL.look, a4]
      by_cases hij : i = j
      · subst hij
        by_cases hiv : i = v
        · subst hiv
          cases g.adj.look i i <;> simp [hp]
        · simp [hiv]
      · have : ¬ (i = v ∧ j = v) := by rintro ⟨rfl, rfl⟩; exact hij rfl
        simp [hij, this]
    · simp only [hp, if_false, ite_self]
      have hL := ih hg (fun w hw => hvs w (by simp [hw]))
      refine ⟨hL.built, hL.keys, hL.index, fun i j => ?_⟩
      rw [hL.look]
      by_cases hiv : i = v
      · subst hiv; simp [hp]
      · simp [hiv]

omit [OrderTop D] in
/-- C76. `generate_random_graph(n, prob_loop, ...)` for `n ≥ 2`: if the proportions are accepted the graph has the vertices
below `n`, is connected and symmetric, vertex `v` has a loop exactly if its draw is below `prob_loop`, and every edge has
one of the given types, with positive proportion. -/
theorem C76_random_graph {n : Nat} (hn : 2 ≤ n) {d : Nat → Nat → D} {isOne sumOk : F → Bool}
    (hone : ∀ x, isOne x = true → 0 < x) {probLoop : F} {prnd : Nat → F} {props lprops : Dict Int F} {rnd lrnd : Nat → F}
    (hr : ∀ i, 0 ≤ rnd i ∧ rnd i < 1) (hlr : ∀ i, 0 ≤ lrnd i ∧ lrnd i < 1) {g : QGraph A}
    (h : randomGraph isOne sumOk n d probLoop prnd props lprops rnd lrnd = .ok g) :
    ∃ g0 : QGraph A, minimalGraph n d = .ok g0 ∧ Built g ∧ (∀ v, v ∈ Dict.keys g.adj ↔ v < n) ∧ Connected n g.adj.edges ∧
      (∀ u v, u ≠ v → ((u, v) ∈ g.adj.edges ↔ (u, v) ∈ g0.adj.edges)) ∧
      (∀ v < n, (v, v) ∈ g.adj.edges ↔ prnd v < probLoop) ∧
      ∀ u v, (u, v) ∈ g.adj.edges → ∃ x t p, g.adj.look u v = some x ∧ x.etype = some t ∧
        (t, p) ∈ (if u = v then lprops else props) ∧ 0 < p := by
  obtain ⟨g0, hg0, hb0, hv0, hs0, hc0, -⟩ := C63_minimal (A := A) hn d
  unfold randomGraph at h
  rw [hg0] at h
  simp only at h
  have hL := addRandomLoops_spec probLoop prnd (Dict.keys g0.adj) hb0 (fun _ h => h)
  generalize addRandomLoops probLoop prnd (Dict.keys g0.adj) g0 = g1 at hL h
  obtain ⟨hsame, htypes⟩ := C64_types hone hL.built hr hlr h
  have hok0 := (Numbered.of_built hb0).ok
  have hok1 := (Numbered.of_built hL.built).ok
  have hok := (Numbered.of_built hsame.built).ok
  have hedge1 : ∀ u v, (u, v) ∈ g.adj.edges ↔ (u, v) ∈ g1.adj.edges := by
    intro u v
    rw [Adj.mem_edges hok, Adj.mem_edges hok1]
    have := congrArg Option.isSome (hsame.look u v)
    simpa using (Bool.eq_iff_iff.mp this)
  have hne : ∀ u v, u ≠ v → ((u, v) ∈ g.adj.edges ↔ (u, v) ∈ g0.adj.edges) := by
    intro u v huv
    rw [hedge1, Adj.mem_edges hok1, Adj.mem_edges hok0, hL.look]
    simp [huv]
  refine ⟨g0, hg0, hsame.built, fun v => ?_, fun x hx y hy => ?_, hne, fun v hv => ?_, fun u v huv => ?_⟩
  · rw [hsame.keys, hL.keys, hv0]
  · refine Conn.of_all (fun e he => ?_) (hc0 x hx y hy)
    obtain ⟨u, v⟩ := e
    exact .rel _ _ ((hne u v (hs0 u v he).1).mpr he)
  · have hnot : g0.adj.look v v = none := by
      cases hl : g0.adj.look v v with
      | none => rfl
      | some x => exact absurd rfl (hs0 v v ((Adj.mem_edges hok0).mpr (by rw [hl]; rfl))).1
    rw [hedge1, Adj.mem_edges hok1, hL.look, hnot]
    have : v ∈ Dict.keys g0.adj := (hv0 v).mpr hv
    by_cases hp : prnd v < probLoop <;> simp [this, hp]
  · exact htypes u v ((hedge1 u v).mp huv)

omit [OrderTop D] in
/-- C76. When `generate_random_graph` succeeds: exactly if the proportions are accepted. -/
theorem C76_when {n : Nat} (hn : 2 ≤ n) {d : Nat → Nat → D} {isOne sumOk : F → Bool}
    (hone : ∀ x, isOne x = true → 0 < x) {probLoop : F} {prnd : Nat → F} {props lprops : Dict Int F} {rnd lrnd : Nat → F}
    (hr : ∀ i, 0 ≤ rnd i ∧ rnd i < 1) (hlr : ∀ i, 0 ≤ lrnd i ∧ lrnd i < 1) :
    (∃ g : QGraph A, randomGraph isOne sumOk n d probLoop prnd props lprops rnd lrnd = .ok g) ↔
      isOne (props.map Prod.snd).sum = true ∧ isOne (lprops.map Prod.snd).sum = true ∧
      sumOk (props.map Prod.snd).sum = true ∧ sumOk (lprops.map Prod.snd).sum = true ∧
      (∀ p ∈ props, 0 ≤ p.2) ∧ ∀ p ∈ lprops, 0 ≤ p.2 := by
  obtain ⟨g0, hg0, hb0, -⟩ := C63_minimal (A := A) hn d
  have hL := addRandomLoops_spec probLoop prnd (Dict.keys g0.adj) hb0 (fun _ h => h)
  unfold randomGraph
  rw [hg0]
  simp only
  generalize addRandomLoops probLoop prnd (Dict.keys g0.adj) g0 = g1 at hL
  constructor
  · rintro ⟨g, hg⟩
    have hrej := fun hh => C64_rejected (isOne := isOne) (sumOk := sumOk) hone (g := g1) (props := props) (lprops := lprops) hr hlr hh
    rw [hg] at hrej
    simpa only [reduceCtorEq, imp_false, not_or, not_exists, not_and, not_lt, Bool.not_eq_false] using hrej
  · rintro ⟨h1, h2, h3, h4, h5, h6⟩
    obtain ⟨g, hg, -⟩ := C64_accepted hone hL.built hr hlr h1 h2 h3 h4 h5 h6
    exact ⟨g, hg⟩

end

/-- C77. `generate_pagerank_graph(n, pType2, pType3)` for `n ≥ 2` and `1 ≤ nDests ≤ n` succeeds; the graph is the minimal
one with loops at the vertices first by rank (type 3) and at the chosen near vertices (type 2), all other edges have
type 1. -/
theorem C77_pagerank_graph {D' : Type*} [LinearOrder D'] [Zero K] {n : Nat} (hn : 2 ≤ n) (d : Nat → Nat → D') (pr : Nat → K)
    {m : Nat} (hm : 1 ≤ m) (hmn : m ≤ n) (k : Nat) (dist : Nat → Nat → D) :
    ∃ g0 g : QGraph A, minimalGraph n d = .ok g0 ∧ pagerankGraph n d pr m k dist = .ok g ∧ Built g ∧
      (∀ v, v ∈ Dict.keys g.adj ↔ v < n) ∧ Connected n g.adj.edges ∧
      (∀ i j, (i, j) ∈ g.adj.edges ↔ (i, j) ∈ g0.adj.edges ∨ (i = j ∧ i < n ∧
        (top ((List.range n).map pr) m i = true ∨ Chosen g0 ((List.range n).map pr) m k dist i))) ∧
      ∀ i j x, g.adj.look i j = some x → x.etype = some (typeOf g0 ((List.range n).map pr) m k dist i j) := by
  obtain ⟨g0, hg0, hb0, hv0, hs0, hc0, -⟩ := C63_minimal (A := A) hn d
  have hrank : ((List.range n).map fun v => if v ∈ Dict.keys g0.adj then pr v else 0) = (List.range n).map pr := by
    refine List.map_congr_left fun v hv => ?_
    rw [if_pos ((hv0 v).mpr (List.mem_range.mp hv))]
  obtain ⟨g, hg⟩ := (C65_when (rank := (List.range n).map pr) (n := k) (dist := dist) hb0 hm).2.2 (by simpa using hmn) (by
    intro v hv
    rw [hv0]
    by_contra hlt
    unfold top at hv
    rw [List.getElem?_eq_none (by simp; omega)] at hv
    simp at hv)
  obtain ⟨hb, hk, -, he, ht⟩ := C65_rank hb0 hm hg
  refine ⟨g0, g, hg0, by unfold pagerankGraph; rw [hg0]; simp only; rw [hrank]; exact hg, hb,
    fun v => (hk v).trans (hv0 v), fun x hx y hy => ?_, fun i j => ?_, fun i j x hx => (ht i j x hx).1⟩
  · refine Conn.of_all (fun e he' => .rel _ _ ?_) (hc0 x hx y hy)
    obtain ⟨i, j⟩ := e
    exact (he i j).mpr (.inl he')
  · rw [he, hv0]

end

/-! ### Examples -/

/-- The edges of a result. -/
def edgesOf (r : Except Err (QGraph Unit)) : Option (List (Nat × Nat)) := match r with | .ok g => some g.adj.edges | .error _ => none

/-- The edges of a result with their types. -/
def typedOf (r : Except Err (QGraph Unit)) : Option (List (Nat × Nat × Option Int)) :=
  match r with
  | .ok g => some (g.adj.flatMap fun p => p.2.map fun q => (p.1, q.1, q.2.etype))
  | .error _ => none

instance : EmptyCollection Unit := ⟨()⟩

/-- Points on a line at 0, 1, 3, 7, .... -/
def lineDist (i j : Nat) : Nat := (2 ^ j - 2 ^ i) ^ 2 + (2 ^ i - 2 ^ j) ^ 2

/-- C63 on four points: 0 and 2 are closer than 2 and 3 and are joined too. -/
example : edgesOf (minimalGraph 4 lineDist) = some [(0, 1), (0, 2), (1, 0), (1, 2), (2, 1), (2, 0), (2, 3), (3, 2)] := by
  decide +kernel

/-- With ties not all pairs at the greatest distance are joined, unlike in the docstring: 1 and 2 are as close as the
others. -/
example : edgesOf (minimalGraph 3 fun _ _ => (1 : Nat)) = some [(0, 1), (0, 2), (1, 0), (2, 0)] := by decide +kernel

/-- Finding F14: one point gives a graph without vertices. -/
example (d : Nat → Nat → Nat) : (match minimalGraph (A := Unit) 1 d with | .ok g => Dict.keys g.adj | .error _ => [7]) = [] := rfl

/-- A graph with a loop and two other edges. -/
def loopGraph : QGraph Unit := QGraph.ofAdj [(0, [(1, ⟨none, ()⟩), (0, ⟨some 4, ()⟩)]), (1, [(0, ⟨none, ()⟩)])]

/-- C64 on this graph: the first edge is drawn from `1, 2`, the second too, the loop has the only type for loops with
positive proportion. -/
example : typedOf (setTypesRandom (fun x : ℚ => decide (x = 1)) (fun x => decide (x = 1)) loopGraph
      [(1, 1 / 4), (2, 3 / 4)] [(3, 0), (0, 1)] (fun i => if i = 0 then 1 / 5 else 1 / 4) (fun _ => 0)) =
    some [(0, 1, some 1), (0, 0, some 0), (1, 0, some 2)] := by decide +kernel

/-- C64: proportions that do not sum to one. -/
example : typedOf (setTypesRandom (fun x : ℚ => decide (x = 1)) (fun x => decide (x = 1)) loopGraph
      [(1, 1 / 4), (2, 1 / 4)] [(0, 1)] (fun _ => 0) (fun _ => 0)) = none := by decide +kernel

/-- Distances to the first vertices by rank. -/
def gdist (v k : Nat) : ℕ∞ := (((v - k) + (k - v) : Nat) : ℕ∞)

/-- C65, C77: on five points on a line the vertices 0 and 4 have the greatest rank; one vertex is chosen near `g_pos[0]`. -/
example : typedOf (pagerankGraph 5 lineDist (fun v => [9, 1, 2, 3, 8].getD v (0 : Nat)) 2 1 fun v k => gdist v (k + 2)) =
    some [(0, 1, some 1), (0, 2, some 1), (0, 3, some 1), (0, 0, some 3),
      (1, 0, some 1), (1, 2, some 1), (1, 3, some 1), (2, 1, some 1), (2, 0, some 1), (2, 3, some 1), (2, 2, some 2),
      (3, 2, some 1), (3, 1, some 1), (3, 0, some 1), (3, 4, some 1), (4, 3, some 1), (4, 4, some 3)] := by
  decide +kernel

/-- C65 (finding F26): with `pType2 = 0` every vertex has a loop of type 3. -/
example : typedOf (pagerankGraph 3 lineDist (fun v => [9, 1, 2].getD v (0 : Nat)) 0 1 gdist) =
    some [(0, 1, some 1), (0, 0, some 3), (1, 0, some 1), (1, 2, some 1), (1, 1, some 3), (2, 1, some 1), (2, 2, some 3)] := by
  decide +kernel

/-- C65: more destinations than vertices is an IndexError. -/
example : (match pagerankGraph (A := Unit) 3 lineDist (fun v => [9, 1, 2].getD v (0 : Nat)) 4 1 gdist with
    | .error .indexError => true | _ => false) = true := by decide +kernel

/-- C76 on three points; vertex 1 has a loop. -/
example : typedOf (randomGraph (fun x : ℚ => decide (x = 1)) (fun x => decide (x = 1)) 3 lineDist (1 / 2)
      (fun v => if v = 1 then 1 / 3 else 2 / 3) [(1, 1 / 2), (2, 1 / 2)] [(0, 1)] (fun i => if i < 2 then 1 / 3 else 1 / 2) (fun _ => 0)) =
    some [(0, 1, some 1), (1, 0, some 1), (1, 2, some 2), (1, 1, some 0), (2, 1, some 2)] := by
  decide +kernel

end Verif.GenSpec
