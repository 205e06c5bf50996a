import Verif.Graph

/-! # Properties of the graph layer: C57, C58, C59, C60 -/

namespace Verif

namespace GSpec

open Adj

variable {A : Type*}

/-! ## Specification: what the arguments say -/

/-- The argument lists edge `(u, v)` with attributes `x`. -/
def IsEdge [EmptyCollection A] : AdjArg A → Nat → Nat → EAttr A → Prop
  | .matrix n nz, u, v, x => u < n ∧ v < n ∧ nz u v = true ∧ x = ⟨none, ∅⟩
  | .dicts d, u, v, x => ∃ p ∈ d, p.1 = u ∧ (v, x) ∈ p.2
  | .lists d, u, v, x => ∃ p ∈ d, p.1 = u ∧ v ∈ p.2 ∧ x = ⟨none, ∅⟩
  | .other, _, _, _ => False

/-- `w` is a row or key of the argument. -/
def IsRow : AdjArg A → Nat → Prop
  | .matrix n _, w => w < n
  | .dicts d, w => ∃ p ∈ d, p.1 = w
  | .lists d, w => ∃ p ∈ d, p.1 = w
  | .other, _ => False

/-- The argument mentions vertex `w`: as a row or key, or as the target of an edge. -/
def IsVertex [EmptyCollection A] (a : AdjArg A) (w : Nat) : Prop :=
  IsRow a w ∨ ∃ u x, IsEdge a u w x

/-- Dicts have distinct keys. -/
def ArgOk : AdjArg A → Prop
  | .matrix _ _ => True
  | .dicts d => (d.map Prod.fst).Nodup ∧ ∀ p ∈ d, (p.2.map Prod.fst).Nodup
  | .lists d => (d.map Prod.fst).Nodup
  | .other => True

/-- `edge_type` gives `(u, v)` the type `et`. -/
def HasType : TypeArg → Nat → Nat → Int → Prop
  | .none, _, _, _ => False
  | .matrix n m, u, v, et => u < n ∧ v < n ∧ m u v = et ∧ et ≠ 0
  | .dicts d, u, v, et => ∃ p ∈ d, p.1 = u ∧ (v, et) ∈ p.2

/-- Dicts have distinct keys. -/
def TypeOk : TypeArg → Prop
  | .dicts d => (d.map Prod.fst).Nodup ∧ ∀ p ∈ d, (p.2.map Prod.fst).Nodup
  | _ => True

/-- The type an edge should end up with, before dead ends are considered: that of the `edge_type` argument,
else its own, else 1. -/
def Typed (ty : TypeArg) (u v : Nat) (x : EAttr A) (et : Int) : Prop :=
  HasType ty u v et ∨ ((∀ t, ¬ HasType ty u v t) ∧ (x.etype = some et ∨ (x.etype = none ∧ et = 1)))

/-- A vertex without out-edges. -/
def Dead [EmptyCollection A] (a : AdjArg A) (w : Nat) : Prop := IsVertex a w ∧ ∀ v x, ¬ IsEdge a w v x

end GSpec

open GSpec

namespace Adj

variable {A : Type*}

/-! ## Lemmas -/

theorem look_isSome_key {g : Adj A} {u v : Nat} {x : EAttr A} (h : g.look u v = some x) : u ∈ Dict.keys g := by
  unfold look at h
  rw [← Dict.get?_isSome]
  cases hd : Dict.get? g u with
  | none => rw [hd] at h; simp at h
  | some _ => rfl

theorem look_iff {g : Adj A} (hg : g.Ok) {u v : Nat} {x : EAttr A} :
    g.look u v = some x ↔ ∃ p ∈ g, p.1 = u ∧ (v, x) ∈ p.2 := by
  unfold look
  rw [Option.bind_eq_some_iff]
  constructor
  · rintro ⟨d, hd, hx⟩
    exact ⟨(u, d), Dict.mem_of_get? hd, rfl, Dict.mem_of_get? hx⟩
  · rintro ⟨p, hp, rfl, hx⟩
    exact ⟨p.2, Dict.get?_of_mem hg.1 hp, Dict.get?_of_mem (hg.2 p hp) hx⟩

theorem isTarget_iff {g : Adj A} (hg : g.Ok) {w : Nat} : IsTarget g w ↔ ∃ u x, g.look u w = some x := by
  simp only [look_iff hg]
  unfold IsTarget Dict.keys
  constructor
  · rintro ⟨p, hp, hw⟩
    obtain ⟨⟨j, x⟩, hq, rfl⟩ := List.mem_map.mp hw
    exact ⟨p.1, x, p, hp, rfl, hq⟩
  · rintro ⟨u, x, p, hp, _, hx⟩
    exact ⟨p, hp, List.mem_map.mpr ⟨_, hx, rfl⟩⟩

theorem get?_dictOfList [EmptyCollection A] (l : List Nat) (v : Nat) :
    Dict.get? (dictOfList (A := A) l) v = if v ∈ l then some ⟨none, ∅⟩ else none := by
  have : ∀ (l : List Nat) (d : Dict Nat (EAttr A)),
      Dict.get? (l.foldl (fun d v => Dict.set d v ⟨none, ∅⟩) d) v =
        if v ∈ l then some ⟨none, ∅⟩ else Dict.get? d v := by
    intro l
    induction l with
    | nil => intro d; simp
    | cons w l ih =>
      intro d
      rw [List.foldl_cons, ih, Dict.get?_set]
      by_cases h1 : v ∈ l <;> by_cases h2 : v = w <;> simp [h1, h2]
  exact this l []

theorem dictOfList_ok [EmptyCollection A] (l : List Nat) : Dict.Ok (dictOfList (A := A) l) := by
  have : ∀ (l : List Nat) (d : Dict Nat (EAttr A)), Dict.Ok d →
      Dict.Ok (l.foldl (fun d v => Dict.set d v ⟨none, ∅⟩) d) := by
    intro l
    induction l with
    | nil => intro d h; exact h
    | cons w l ih => intro d h; exact ih _ (h.set _ _)
  exact this l [] List.nodup_nil

/-- The dict of dicts made from the argument. -/
theorem ofArg_spec [EmptyCollection A] {a : AdjArg A} (ha : ArgOk a) {g : Adj A} (h : ofArg a = .ok g) :
    g.Ok ∧ (∀ u v x, g.look u v = some x ↔ IsEdge a u v x) ∧
    (∀ w, (w ∈ Dict.keys g ∨ ∃ u x, g.look u w = some x) ↔ IsVertex a w) := by
  have key : g.Ok ∧ (∀ u v x, g.look u v = some x ↔ IsEdge a u v x) ∧
      (∀ w, w ∈ Dict.keys g ↔ IsRow a w) := by
    cases a with
    | matrix n nz =>
      simp only [ofArg, Except.ok.injEq] at h
      subst h
      have hok : (ofMatrix (A := A) n nz).Ok := by
        refine ⟨?_, ?_⟩
        · unfold Dict.Ok Dict.keys ofMatrix
          rw [List.map_map]
          have : (Prod.fst ∘ fun k => (k, ((List.range n).filter (nz k)).map fun j => (j, (⟨none, ∅⟩ : EAttr A)))) = id := rfl
          rw [this, List.map_id]; exact List.nodup_range
        · intro p hp
          obtain ⟨k, hk, rfl⟩ := List.mem_map.mp hp
          unfold Dict.Ok Dict.keys
          rw [List.map_map]
          have : (Prod.fst ∘ fun j : Nat => (j, (⟨none, ∅⟩ : EAttr A))) = id := rfl
          rw [this, List.map_id]; exact List.nodup_range.filter _
      refine ⟨hok, fun u v x => ?_, fun w => ?_⟩
      · rw [look_iff hok]
        unfold ofMatrix IsEdge
        constructor
        · rintro ⟨p, hp, rfl, hx⟩
          obtain ⟨k, hk, rfl⟩ := List.mem_map.mp hp
          obtain ⟨j, hj, he⟩ := List.mem_map.mp hx
          simp only [Prod.mk.injEq] at he
          obtain ⟨rfl, rfl⟩ := he
          rw [List.mem_filter, List.mem_range] at hj
          exact ⟨List.mem_range.mp hk, hj.1, hj.2, rfl⟩
        · rintro ⟨hu, hv, hz, rfl⟩
          exact ⟨_, List.mem_map.mpr ⟨u, List.mem_range.mpr hu, rfl⟩, rfl,
            List.mem_map.mpr ⟨v, List.mem_filter.mpr ⟨List.mem_range.mpr hv, hz⟩, rfl⟩⟩
      · simp [Dict.keys, ofMatrix, IsRow]
    | dicts d =>
      simp only [ofArg] at h
      split at h
      · exact absurd h (by simp)
      · simp only [Except.ok.injEq] at h
        subst h
        have hok : Adj.Ok d := ha
        exact ⟨hok, fun u v x => look_iff hok, fun w => by simp [Dict.keys, IsRow]⟩
    | lists d =>
      simp only [ofArg] at h
      split at h
      · exact absurd h (by simp)
      · simp only [Except.ok.injEq] at h
        subst h
        have hk := Dict.keys_map (K := Nat) (V := List Nat) d (fun _ l => dictOfList (A := A) l)
        have hok : Adj.Ok (d.map fun p => (p.1, dictOfList (A := A) p.2)) := by
          refine ⟨?_, fun p hp => ?_⟩
          · unfold Dict.Ok; rw [hk]; exact ha
          · obtain ⟨q, _, rfl⟩ := List.mem_map.mp hp
            exact dictOfList_ok _
        refine ⟨hok, fun u v x => ?_, fun w => ?_⟩
        · rw [look_iff hok]
          unfold IsEdge
          constructor
          · rintro ⟨p, hp, rfl, hx⟩
            obtain ⟨q, hq, rfl⟩ := List.mem_map.mp hp
            have := Dict.get?_of_mem (dictOfList_ok _) hx
            rw [get?_dictOfList] at this
            split at this
            · exact ⟨q, hq, rfl, by assumption, by simpa using this.symm⟩
            · simp at this
          · rintro ⟨p, hp, rfl, hv, rfl⟩
            refine ⟨_, List.mem_map.mpr ⟨p, hp, rfl⟩, rfl, Dict.mem_of_get? ?_⟩
            rw [get?_dictOfList, if_pos hv]
        · rw [hk]; simp [Dict.keys, IsRow]
    | other => simp [ofArg] at h
  obtain ⟨h1, h2, h3⟩ := key
  refine ⟨h1, h2, fun w => ?_⟩
  unfold IsVertex
  rw [h3]
  simp only [h2]

theorem ofArg_error [EmptyCollection A] (a : AdjArg A) :
    (∃ g, ofArg a = .ok g) ↔ a ≠ .other ∧ a ≠ .dicts [] ∧ a ≠ .lists [] := by
  cases a with
  | matrix n nz => simp [ofArg]
  | dicts d => by_cases h : d = [] <;> simp [ofArg, h]
  | lists d => by_cases h : d = [] <;> simp [ofArg, h]
  | other => simp [ofArg]

/-- One assignment. -/
theorem setType_spec {g : Adj A} (hg : g.Ok) (u v : Nat) (et : Int) :
    (g.look u v = none → g.setType u v et = none) ∧
    ∀ x, g.look u v = some x → ∃ g', g.setType u v et = some g' ∧ g'.Ok ∧ Dict.keys g' = Dict.keys g ∧
      ∀ i j, g'.look i j = if i = u ∧ j = v then some { x with etype := some et } else g.look i j := by
  unfold setType
  constructor
  · intro h
    unfold look at h
    cases hd : Dict.get? g u with
    | none => rfl
    | some d =>
      rw [hd] at h
      simp only [Option.bind_some] at h
      simp [h]
  · intro x h
    unfold look at h
    cases hd : Dict.get? g u with
    | none => rw [hd] at h; simp at h
    | some d =>
      rw [hd] at h
      simp only [Option.bind_some] at h
      simp only [h]
      have hk : u ∈ Dict.keys g := by rw [← Dict.get?_isSome, hd]; rfl
      refine ⟨_, rfl, ?_, ?_, ?_⟩
      · rw [ok_iff]
        refine ⟨hg.1.set _ _, fun i d' hi => ?_⟩
        rw [Dict.get?_set] at hi
        split at hi
        · simp only [Option.some.injEq] at hi
          subst hi
          exact ((ok_iff.mp hg).2 u d hd).set _ _
        · exact (ok_iff.mp hg).2 i d' hi
      · rw [Dict.keys_set, if_pos hk]
      · intro i j
        unfold look
        rw [Dict.get?_set]
        by_cases hi : i = u
        · subst hi
          simp only [if_true, Option.bind_some, Dict.get?_set, true_and, hd]
        · simp [hi]

theorem setTypesFrom_spec (u : Nat) (ty : Dict Nat Int) : ∀ {g : Adj A}, g.Ok → Dict.Ok ty →
    ((∃ v ∈ Dict.keys ty, g.look u v = none) → g.setTypesFrom u ty = none) ∧
    ((∀ v ∈ Dict.keys ty, g.look u v ≠ none) → ∃ g', g.setTypesFrom u ty = some g' ∧ g'.Ok ∧
      Dict.keys g' = Dict.keys g ∧
      ∀ i j, g'.look i j = (g.look i j).map fun x =>
        if i = u then (match Dict.get? ty j with | some et => { x with etype := some et } | none => x) else x) := by
  induction ty with
  | nil =>
    intro g hg _
    refine ⟨by simp, fun _ => ⟨g, rfl, hg, rfl, fun i j => ?_⟩⟩
    simp [Dict.get?]
  | cons q ty ih =>
    intro g hg hty
    obtain ⟨v, et⟩ := q
    have hn : v ∉ Dict.keys ty ∧ Dict.Ok ty := by
      unfold Dict.Ok at hty ⊢; simpa using hty
    have h1 := setType_spec hg u v et
    cases hl : g.look u v with
    | none =>
      have := h1.1 hl
      refine ⟨fun _ => by simp [setTypesFrom, this], fun h => absurd hl (h v (by simp))⟩
    | some x =>
      obtain ⟨g1, hs, hok1, hk1, hl1⟩ := h1.2 x hl
      have h2 := ih hok1 hn.2
      have hsame : ∀ w ∈ Dict.keys ty, g1.look u w = g.look u w := by
        intro w hw
        rw [hl1, if_neg]
        rintro ⟨_, rfl⟩; exact hn.1 hw
      constructor
      · rintro ⟨w, hw, hwn⟩
        simp only [setTypesFrom, hs]
        apply h2.1
        simp only [Dict.keys_cons, List.mem_cons] at hw
        rcases hw with rfl | hw
        · rw [hl] at hwn; simp at hwn
        · exact ⟨w, hw, by rw [hsame w hw]; exact hwn⟩
      · intro hall
        obtain ⟨g', hs', hok', hk', hl'⟩ := h2.2 (fun w hw => by
          rw [hsame w hw]; exact hall w (by simp [hw]))
        refine ⟨g', by simp [setTypesFrom, hs, hs'], hok', hk'.trans hk1, fun i j => ?_⟩
        rw [hl', hl1]
        by_cases hi : i = u
        · subst hi
          by_cases hj : j = v
          · subst hj
            have : Dict.get? ty j = none := Dict.get?_eq_none.mpr hn.1
            simp [Dict.get?, hl, this]
          · simp only [true_and, hj, if_false, if_true, Dict.get?, Ne.symm hj]
        · simp [hi]

/-- What a dict of types says about an edge. -/
def tyLook (d : Dict Nat (Dict Nat Int)) (u v : Nat) : Option Int := (Dict.get? d u).bind fun t => Dict.get? t v

/-- The loop over `edge_type`. -/
theorem setTypes_spec (d : Dict Nat (Dict Nat Int)) : ∀ {g : Adj A}, g.Ok → Dict.Ok d → (∀ p ∈ d, Dict.Ok p.2) →
    ((∃ u v, (tyLook d u v).isSome ∧ g.look u v = none) → g.setTypes d = none) ∧
    ((∀ u v, (tyLook d u v).isSome → g.look u v ≠ none) → ∃ g', g.setTypes d = some g' ∧ g'.Ok ∧
      Dict.keys g' = Dict.keys g ∧
      ∀ i j, g'.look i j = (g.look i j).map fun x =>
        match tyLook d i j with | some et => { x with etype := some et } | none => x) := by
  induction d with
  | nil =>
    intro g hg _ _
    refine ⟨by simp [tyLook, Dict.get?], fun _ => ⟨g, rfl, hg, rfl, fun i j => ?_⟩⟩
    simp [tyLook, Dict.get?]
  | cons q d ih =>
    intro g hg hd hty
    obtain ⟨u, ty⟩ := q
    have hn : u ∉ Dict.keys d ∧ Dict.Ok d := by
      unfold Dict.Ok at hd ⊢; simpa using hd
    have htl : ∀ i j, tyLook ((u, ty) :: d) i j = if i = u then Dict.get? ty j else tyLook d i j := by
      intro i j
      unfold tyLook
      simp only [Dict.get?]
      by_cases hi : u = i
      · simp [hi]
      · simp [hi, Ne.symm hi]
    have htu : ∀ j, tyLook d u j = none := by
      intro j; unfold tyLook; rw [Dict.get?_eq_none.mpr hn.1]; rfl
    have h1 := setTypesFrom_spec (A := A) u ty hg (hty (u, ty) (by simp))
    by_cases hall : ∀ v ∈ Dict.keys ty, g.look u v ≠ none
    · obtain ⟨g1, hs, hok1, hk1, hl1⟩ := h1.2 hall
      have h2 := ih hok1 hn.2 (fun p hp => hty p (by simp [hp]))
      have hnone : ∀ i j, g1.look i j = none ↔ g.look i j = none := by
        intro i j; rw [hl1, Option.map_eq_none_iff]
      constructor
      · rintro ⟨i, j, hij, hn'⟩
        simp only [setTypes, hs]
        apply h2.1
        rw [htl] at hij
        by_cases hi : i = u
        · subst hi
          rw [if_pos rfl, Dict.get?_isSome] at hij
          exact absurd hn' (hall j hij)
        · rw [if_neg hi] at hij
          exact ⟨i, j, hij, (hnone i j).mpr hn'⟩
      · intro hall'
        obtain ⟨g', hs', hok', hk', hl'⟩ := h2.2 (fun i j hij => by
          rw [Ne, hnone]
          refine hall' i j ?_
          rw [htl, if_neg]
          · exact hij
          · rintro rfl; rw [htu] at hij; simp at hij)
        refine ⟨g', by simp [setTypes, hs, hs'], hok', hk'.trans hk1, fun i j => ?_⟩
        rw [hl', hl1, htl]
        by_cases hi : i = u
        · subst hi
          simp [htu, Function.comp_def]
        · simp [hi]
    · push Not at hall
      obtain ⟨v, hv, hvn⟩ := hall
      have hnone := h1.1 ⟨v, hv, hvn⟩
      refine ⟨fun _ => by simp [setTypes, hnone], fun h => absurd hvn (h u v ?_)⟩
      rw [htl, if_pos rfl, Dict.get?_isSome]; exact hv

theorem tyLook_iff {d : Dict Nat (Dict Nat Int)} (h1 : Dict.Ok d) (h2 : ∀ p ∈ d, Dict.Ok p.2) {u v : Nat} {et : Int} :
    tyLook d u v = some et ↔ ∃ p ∈ d, p.1 = u ∧ (v, et) ∈ p.2 := by
  unfold tyLook
  rw [Option.bind_eq_some_iff]
  constructor
  · rintro ⟨t, ht, hx⟩
    exact ⟨(u, t), Dict.mem_of_get? ht, rfl, Dict.mem_of_get? hx⟩
  · rintro ⟨p, hp, rfl, hx⟩
    exact ⟨p.2, Dict.get?_of_mem h1 hp, Dict.get?_of_mem (h2 p hp) hx⟩

theorem types_spec {ty : TypeArg} (h : TypeOk ty) {d : Dict Nat (Dict Nat Int)} (hd : types ty = .ok d) :
    Dict.Ok d ∧ (∀ p ∈ d, Dict.Ok p.2) ∧ ∀ u v et, tyLook d u v = some et ↔ HasType ty u v et := by
  cases ty with
  | none =>
    simp only [types, Except.ok.injEq] at hd
    subst hd
    exact ⟨List.nodup_nil, by simp, by simp [tyLook, Dict.get?, HasType]⟩
  | matrix n m =>
    simp only [types, Except.ok.injEq] at hd
    subst hd
    have h1 : Dict.Ok ((List.range n).map fun k =>
        (k, ((List.range n).filter fun j => m k j != 0).map fun j => (j, m k j))) := by
      unfold Dict.Ok Dict.keys
      rw [List.map_map]
      have : (Prod.fst ∘ fun k => (k, ((List.range n).filter fun j => m k j != 0).map fun j => (j, m k j))) = id := rfl
      rw [this, List.map_id]; exact List.nodup_range
    have h2 : ∀ p ∈ ((List.range n).map fun k =>
        (k, ((List.range n).filter fun j => m k j != 0).map fun j => (j, m k j))), Dict.Ok p.2 := by
      intro p hp
      obtain ⟨k, hk, rfl⟩ := List.mem_map.mp hp
      unfold Dict.Ok Dict.keys
      rw [List.map_map]
      have : (Prod.fst ∘ fun j => (j, m k j)) = id := rfl
      rw [this, List.map_id]; exact List.nodup_range.filter _
    refine ⟨h1, h2, fun u v et => ?_⟩
    rw [tyLook_iff h1 h2]
    unfold HasType
    constructor
    · rintro ⟨p, hp, rfl, hx⟩
      obtain ⟨k, hk, rfl⟩ := List.mem_map.mp hp
      obtain ⟨j, hj, he⟩ := List.mem_map.mp hx
      simp only [Prod.mk.injEq] at he
      obtain ⟨rfl, rfl⟩ := he
      rw [List.mem_filter, List.mem_range] at hj
      exact ⟨List.mem_range.mp hk, hj.1, rfl, by simpa using hj.2⟩
    · rintro ⟨hu, hv, rfl, hne⟩
      exact ⟨_, List.mem_map.mpr ⟨u, List.mem_range.mpr hu, rfl⟩, rfl,
        List.mem_map.mpr ⟨v, List.mem_filter.mpr ⟨List.mem_range.mpr hv, by simpa using hne⟩, rfl⟩⟩
  | dicts d' =>
    simp only [types] at hd
    split at hd
    · exact absurd hd (by simp)
    · simp only [Except.ok.injEq] at hd
      subst hd
      exact ⟨h.1, h.2, fun u v et => tyLook_iff h.1 h.2⟩

/-- A map over all inner dicts. -/
theorem map_look {g : Adj A} (F : Nat → Dict Nat (EAttr A) → Dict Nat (EAttr A)) (u v : Nat) :
    look (g.map fun p => (p.1, F p.1 p.2)) u v = (Dict.get? g u).bind fun d => Dict.get? (F u d) v := by
  unfold look
  rw [Dict.get?_map]
  cases Dict.get? g u <;> rfl

theorem map_ok {g : Adj A} (hg : g.Ok) (F : Nat → Dict Nat (EAttr A) → Dict Nat (EAttr A))
    (hF : ∀ u d, Dict.Ok d → Dict.Ok (F u d)) : Adj.Ok (g.map fun p => (p.1, F p.1 p.2)) := by
  refine ⟨?_, fun p hp => ?_⟩
  · unfold Dict.Ok; rw [Dict.keys_map]; exact hg.1
  · obtain ⟨q, hq, rfl⟩ := List.mem_map.mp hp
    exact hF _ _ (hg.2 q hq)

theorem fillTypes_spec {g : Adj A} (hg : g.Ok) : (fillTypes g).Ok ∧ Dict.keys (fillTypes g) = Dict.keys g ∧
    ∀ u v, (fillTypes g).look u v = (g.look u v).map fun x => { x with etype := some (x.etype.getD 1) } := by
  refine ⟨?_, ?_, fun u v => ?_⟩
  · refine map_ok hg (fun _ d => d.map fun q => (q.1, { q.2 with etype := some (q.2.etype.getD 1) })) fun u d hd => ?_
    unfold Dict.Ok
    have := Dict.keys_map d (fun _ (x : EAttr A) => { x with etype := some (x.etype.getD 1) })
    exact this ▸ hd
  · exact Dict.keys_map g (fun _ d => d.map fun q => (q.1, { q.2 with etype := some (q.2.etype.getD 1) }))
  · unfold fillTypes
    rw [map_look (F := fun _ d => d.map fun q => (q.1, { q.2 with etype := some (q.2.etype.getD 1) }))]
    unfold look
    cases Dict.get? g u with
    | none => rfl
    | some d =>
      simp only [Option.bind_some]
      exact Dict.get?_map d (fun _ x => { x with etype := some (x.etype.getD 1) }) v

theorem isEmpty_iff_look {g : Adj A} {u : Nat} {d : Dict Nat (EAttr A)} (h : Dict.get? g u = some d) :
    d.isEmpty = true ↔ ∀ v, g.look u v = none := by
  unfold look
  rw [h]
  simp only [Option.bind_some]
  constructor
  · intro hd v
    rw [List.isEmpty_iff] at hd
    subst hd; rfl
  · intro hv
    cases d with
    | nil => rfl
    | cons q d =>
      have := hv q.1
      simp [Dict.get?] at this

theorem mem_nullNodes {g : Adj A} (hg : g.Ok) {w : Nat} :
    w ∈ nullNodes g ↔ w ∈ Dict.keys g ∧ ∀ v, g.look w v = none := by
  unfold nullNodes
  rw [List.mem_map]
  constructor
  · rintro ⟨p, hp, rfl⟩
    rw [List.mem_filter] at hp
    have := Dict.get?_of_mem hg.1 (show (p.1, p.2) ∈ g from hp.1)
    exact ⟨List.mem_map.mpr ⟨p, hp.1, rfl⟩, (isEmpty_iff_look this).mp hp.2⟩
  · rintro ⟨hk, hl⟩
    obtain ⟨d, hd⟩ := Option.isSome_iff_exists.mp (Dict.get?_isSome.mpr hk)
    exact ⟨(w, d), List.mem_filter.mpr ⟨Dict.mem_of_get? hd, (isEmpty_iff_look hd).mpr hl⟩, rfl⟩

theorem markNull_spec {g : Adj A} (hg : g.Ok) : (markNull g).Ok ∧ Dict.keys (markNull g) = Dict.keys g ∧
    ∀ u v, (markNull g).look u v = (g.look u v).map fun x =>
      if v ∈ nullNodes g then { x with etype := some 0 } else x := by
  refine ⟨?_, ?_, fun u v => ?_⟩
  · refine map_ok hg (fun _ d => d.map fun q =>
      (q.1, if q.1 ∈ nullNodes g then { q.2 with etype := some 0 } else q.2)) fun u d hd => ?_
    unfold Dict.Ok
    have := Dict.keys_map d (fun v (x : EAttr A) => if v ∈ nullNodes g then { x with etype := some 0 } else x)
    exact this ▸ hd
  · exact Dict.keys_map g (fun _ d => d.map fun q =>
      (q.1, if q.1 ∈ nullNodes g then { q.2 with etype := some 0 } else q.2))
  · unfold markNull
    rw [map_look (F := fun _ d => d.map fun q =>
      (q.1, if q.1 ∈ nullNodes g then { q.2 with etype := some 0 } else q.2))]
    unfold look
    cases Dict.get? g u with
    | none => rfl
    | some d =>
      simp only [Option.bind_some]
      exact Dict.get?_map d (fun v x => if v ∈ nullNodes g then { x with etype := some 0 } else x) v

theorem addLoops_spec [EmptyCollection A] {g : Adj A} (hg : g.Ok) :
    (addLoops g).Ok ∧ Dict.keys (addLoops g) = Dict.keys g ∧
    ∀ u v, (addLoops g).look u v =
      if u ∈ nullNodes g then (if v = u then some ⟨some 0, ∅⟩ else none) else g.look u v := by
  refine ⟨?_, ?_, fun u v => ?_⟩
  · refine map_ok hg (fun u d => if d.isEmpty then [(u, ⟨some 0, ∅⟩)] else d) fun u d hd => ?_
    split
    · simp [Dict.Ok]
    · exact hd
  · exact Dict.keys_map g (fun u d => if d.isEmpty then [(u, ⟨some 0, ∅⟩)] else d)
  · unfold addLoops
    rw [map_look (F := fun u d => if d.isEmpty then [(u, ⟨some 0, ∅⟩)] else d)]
    cases hd : Dict.get? g u with
    | none =>
      have : u ∉ nullNodes g := by
        rw [mem_nullNodes hg]
        rintro ⟨hk, _⟩
        exact Dict.get?_eq_none.mp hd hk
      simp [this, look, hd]
    | some d =>
      simp only [Option.bind_some]
      have hiff : u ∈ nullNodes g ↔ d.isEmpty = true := by
        rw [mem_nullNodes hg, isEmpty_iff_look hd]
        have : u ∈ Dict.keys g := by rw [← Dict.get?_isSome, hd]; rfl
        simp [this]
      by_cases he : d.isEmpty = true
      · rw [if_pos he, if_pos (hiff.mpr he)]
        simp [Dict.get?, eq_comm]
      · rw [if_neg he, if_neg (fun h => he (hiff.mp h))]
        simp [look, hd]

/-- The graph before dead ends are treated. -/
theorem prep_spec [EmptyCollection A] {a : AdjArg A} {ty : TypeArg} {two : Bool} (ha : ArgOk a) (hty : TypeOk ty)
    {g : Adj A} (h : adjacency2graph a ty two = .ok g) :
    ∃ g0 : Adj A, g0.Ok ∧ g = fromDicts (if two then markNull g0 else addLoops g0) ∧
      (∀ w, w ∈ Dict.keys g0 ↔ IsVertex a w) ∧
      (∀ u v, (∃ x, g0.look u v = some x) ↔ ∃ x, IsEdge a u v x) ∧
      ∀ u v x, g0.look u v = some x ↔
        ∃ x0 et, IsEdge a u v x0 ∧ Typed ty u v x0 et ∧ x = { x0 with etype := some et } := by
  unfold adjacency2graph at h
  cases h1 : ofArg a with
  | error e => rw [h1] at h; simp at h
  | ok ga =>
    cases h2 : types ty with
    | error e => rw [h1, h2] at h; simp at h
    | ok d =>
      rw [h1, h2] at h
      simp only at h
      obtain ⟨hok, hl, hk⟩ := ofArg_spec ha h1
      obtain ⟨hd1, hd2, hd3⟩ := types_spec hty h2
      have hs := setTypes_spec d hok hd1 hd2
      by_cases hall : ∀ u v, (tyLook d u v).isSome → ga.look u v ≠ none
      · obtain ⟨g1, hs1, hok1, hk1, hl1⟩ := hs.2 hall
        rw [hs1] at h
        simp only [Except.ok.injEq] at h
        have hf := fromDicts_ok hok1
        obtain ⟨f1, f2, f3⟩ := fillTypes_spec hf
        have hlook : ∀ u v x, (fillTypes (fromDicts g1)).look u v = some x ↔
            ∃ x0 et, IsEdge a u v x0 ∧ Typed ty u v x0 et ∧ x = { x0 with etype := some et } := by
          intro u v x
          rw [f3, look_fromDicts hok1, hl1]
          simp only [Option.map_map, Option.map_eq_some_iff, Function.comp]
          constructor
          · rintro ⟨x0, hx0, rfl⟩
            cases ht : tyLook d u v with
            | some et =>
              exact ⟨x0, et, (hl _ _ _).mp hx0, Or.inl ((hd3 _ _ _).mp ht), by simp⟩
            | none =>
              refine ⟨x0, x0.etype.getD 1, (hl _ _ _).mp hx0, Or.inr ⟨fun t htt => ?_, ?_⟩, by simp⟩
              · rw [← hd3, ht] at htt; simp at htt
              · cases x0.etype <;> simp
          · rintro ⟨x0, et, he, hty', rfl⟩
            refine ⟨x0, (hl _ _ _).mpr he, ?_⟩
            rcases hty' with h' | ⟨h', h''⟩
            · rw [(hd3 _ _ _).mpr h']; rfl
            · have : tyLook d u v = none := by
                cases ht : tyLook d u v with
                | none => rfl
                | some t => exact absurd ((hd3 _ _ _).mp ht) (h' t)
              rw [this]
              rcases h'' with h'' | ⟨h'', rfl⟩ <;> simp [h'']
        have hedge : ∀ u v, (∃ x, (fillTypes (fromDicts g1)).look u v = some x) ↔ ∃ x, IsEdge a u v x := by
          intro u v
          constructor
          · rintro ⟨x, hx⟩
            obtain ⟨x0, _, he, _⟩ := (hlook u v x).mp hx
            exact ⟨x0, he⟩
          · rintro ⟨x0, he⟩
            rw [f3, look_fromDicts hok1, hl1, (hl _ _ _).mpr he]
            exact ⟨_, rfl⟩
        refine ⟨fillTypes (fromDicts g1), f1, ?_, ?_, hedge, hlook⟩
        · rw [← h]
          unfold adjust
          cases two <;> rfl
        · intro w
          rw [f2, ← hk w, ← Dict.get?_isSome, get?_fromDicts hok1]
          have ht : IsTarget g1 w ↔ ∃ u x, ga.look u w = some x := by
            rw [isTarget_iff hok1]
            constructor
            · rintro ⟨u, x, hx⟩
              rw [hl1] at hx
              obtain ⟨x0, hx0, _⟩ := Option.map_eq_some_iff.mp hx
              exact ⟨u, x0, hx0⟩
            · rintro ⟨u, x, hx⟩
              exact ⟨u, _, by rw [hl1, hx]; rfl⟩
          rw [← ht, ← hk1, ← Dict.get?_isSome]
          cases Dict.get? g1 w with
          | some _ => simp
          | none => by_cases h' : IsTarget g1 w <;> simp [h']
      · push Not at hall
        obtain ⟨u, v, hs', hn⟩ := hall
        rw [hs.1 ⟨u, v, hs', hn⟩] at h
        simp at h

theorem dead_iff [EmptyCollection A] {a : AdjArg A} {g0 : Adj A} (hok : g0.Ok)
    (hk : ∀ w, w ∈ Dict.keys g0 ↔ IsVertex a w)
    (he : ∀ u v, (∃ x, g0.look u v = some x) ↔ ∃ x, IsEdge a u v x) (w : Nat) : w ∈ nullNodes g0 ↔ Dead a w := by
  rw [mem_nullNodes hok, hk]
  unfold Dead
  refine and_congr_right fun _ => ⟨fun h v x hx => ?_, fun h v => ?_⟩
  · obtain ⟨y, hy⟩ := (he w v).mpr ⟨x, hx⟩
    rw [h v] at hy; simp at hy
  · cases hl : g0.look w v with
    | none => rfl
    | some y =>
      obtain ⟨x, hx⟩ := (he w v).mp ⟨y, hl⟩
      exact absurd hx (h v x)

theorem keys_fromDicts {g : Adj A} (hg : g.Ok) (w : Nat) :
    w ∈ Dict.keys (fromDicts g) ↔ w ∈ Dict.keys g ∨ ∃ u x, g.look u w = some x := by
  rw [← Dict.get?_isSome, get?_fromDicts hg, ← isTarget_iff hg, ← Dict.get?_isSome]
  cases Dict.get? g w with
  | some _ => simp
  | none => by_cases h' : IsTarget g w <;> simp [h']

end Adj

theorem edge_unique {A : Type*} [EmptyCollection A] {a : Adj.AdjArg A} (ha : ArgOk a) {u v : Nat} {x y : EAttr A}
    (hx : IsEdge a u v x) (hy : IsEdge a u v y) : x = y := by
  cases a with
  | matrix n nz => rw [hx.2.2.2, hy.2.2.2]
  | dicts d =>
    have hok : Adj.Ok d := ha
    have h1 := (Adj.look_iff hok).mpr hx
    have h2 := (Adj.look_iff hok).mpr hy
    rw [h1] at h2; simpa using h2
  | lists d =>
    obtain ⟨_, _, _, _, rfl⟩ := hx
    obtain ⟨_, _, _, _, rfl⟩ := hy
    rfl
  | other => exact absurd hx (by simp [IsEdge])

/-! ## C58: `adjust = 1` -/

section

open Adj

variable {A : Type*} [EmptyCollection A]

/-- C58. `adjacency2graph` with `adjust = 1` has exactly the vertices of the argument; its edges are the given
ones, each with the type it should have and its other attributes, and a loop of type 0 at every vertex
without out-edges; so every vertex has an out-edge and every edge a type. -/
theorem C58_adjust_one {a : AdjArg A} {ty : TypeArg} (ha : ArgOk a) (hty : TypeOk ty)
    {g : Adj A} (h : adjacency2graph a ty false = .ok g) :
    (∀ w, w ∈ Dict.keys g ↔ IsVertex a w) ∧
    (∀ u v x, g.look u v = some x ↔
      (∃ x0 et, IsEdge a u v x0 ∧ Typed ty u v x0 et ∧ x = { x0 with etype := some et }) ∨
      (Dead a u ∧ v = u ∧ x = ⟨some 0, ∅⟩)) ∧
    (∀ w, w ∈ Dict.keys g → ∃ v x, g.look w v = some x) ∧
    ∀ u v x, g.look u v = some x → x.etype ≠ none := by
  obtain ⟨g0, hok, rfl, hk, he, hl⟩ := prep_spec ha hty h
  simp only [Bool.false_eq_true, if_false]
  obtain ⟨l1, l2, l3⟩ := addLoops_spec hok
  have hd := dead_iff hok hk he
  have hlook : ∀ u v x, (fromDicts (addLoops g0)).look u v = some x ↔
      (∃ x0 et, IsEdge a u v x0 ∧ Typed ty u v x0 et ∧ x = { x0 with etype := some et }) ∨
      (Dead a u ∧ v = u ∧ x = ⟨some 0, ∅⟩) := by
    intro u v x
    rw [look_fromDicts l1, l3]
    by_cases hu : u ∈ nullNodes g0
    · rw [if_pos hu]
      have hdu := (hd u).mp hu
      constructor
      · intro hx
        split at hx
        · exact Or.inr ⟨hdu, by assumption, by simpa using hx.symm⟩
        · simp at hx
      · rintro (⟨x0, _, hx0, _⟩ | ⟨_, rfl, rfl⟩)
        · exact absurd hx0 (hdu.2 v x0)
        · simp
    · rw [if_neg hu, hl]
      have : ¬ Dead a u := fun h' => hu ((hd u).mpr h')
      simp [this]
  have hkeys : ∀ w, w ∈ Dict.keys (fromDicts (addLoops g0)) ↔ IsVertex a w := by
    intro w
    rw [keys_fromDicts l1, l2, hk]
    constructor
    · rintro (h' | ⟨u, x, hx⟩)
      · exact h'
      · rw [← look_fromDicts l1, hlook] at hx
        rcases hx with ⟨x0, _, hx0, _⟩ | ⟨hdu, rfl, _⟩
        · exact Or.inr ⟨u, x0, hx0⟩
        · exact hdu.1
    · exact Or.inl
  refine ⟨hkeys, hlook, fun w hw => ?_, fun u v x hx => ?_⟩
  · by_cases hdw : Dead a w
    · exact ⟨w, _, (hlook w w _).mpr (Or.inr ⟨hdw, rfl, rfl⟩)⟩
    · have hv : IsVertex a w := (hkeys w).mp hw
      have : ∃ v x, IsEdge a w v x := by
        by_contra hno
        push Not at hno
        exact hdw ⟨hv, hno⟩
      obtain ⟨v, x, hx⟩ := this
      obtain ⟨y, hy⟩ := (he w v).mpr ⟨x, hx⟩
      refine ⟨v, y, ?_⟩
      rw [hlook]
      exact Or.inl ((hl w v y).mp hy)
  · rcases (hlook u v x).mp hx with ⟨_, _, _, _, rfl⟩ | ⟨_, _, rfl⟩ <;> simp

/-- C59. With `adjust = 2` the vertices and edges are those of the argument; exactly the edges into vertices
without out-edges get type 0, every other edge the type it should have; other attributes are kept. -/
theorem C59_adjust_two {a : AdjArg A} {ty : TypeArg} (ha : ArgOk a) (hty : TypeOk ty)
    {g : Adj A} (h : adjacency2graph a ty true = .ok g) :
    (∀ w, w ∈ Dict.keys g ↔ IsVertex a w) ∧
    ∀ u v x, g.look u v = some x ↔
      ∃ x0, IsEdge a u v x0 ∧ x.rest = x0.rest ∧
        ((Dead a v ∧ x.etype = some 0) ∨ (¬ Dead a v ∧ ∃ et, Typed ty u v x0 et ∧ x.etype = some et)) := by
  obtain ⟨g0, hok, rfl, hk, he, hl⟩ := prep_spec ha hty h
  simp only [if_true]
  obtain ⟨l1, l2, l3⟩ := markNull_spec hok
  have hd := dead_iff hok hk he
  have hlook : ∀ u v x, (fromDicts (markNull g0)).look u v = some x ↔
      ∃ x0, IsEdge a u v x0 ∧ x.rest = x0.rest ∧
        ((Dead a v ∧ x.etype = some 0) ∨ (¬ Dead a v ∧ ∃ et, Typed ty u v x0 et ∧ x.etype = some et)) := by
    intro u v x
    rw [look_fromDicts l1, l3, Option.map_eq_some_iff]
    constructor
    · rintro ⟨y, hy, rfl⟩
      obtain ⟨x0, et, hx0, ht, rfl⟩ := (hl u v y).mp hy
      by_cases hv : v ∈ nullNodes g0
      · rw [if_pos hv]
        exact ⟨x0, hx0, rfl, Or.inl ⟨(hd v).mp hv, rfl⟩⟩
      · rw [if_neg hv]
        exact ⟨x0, hx0, rfl, Or.inr ⟨fun h' => hv ((hd v).mpr h'), et, ht, rfl⟩⟩
    · rintro ⟨x0, hx0, hr, h' | ⟨hnd, et, ht, hxe⟩⟩
      · obtain ⟨y, hy⟩ := (he u v).mpr ⟨x0, hx0⟩
        refine ⟨y, hy, ?_⟩
        rw [if_pos ((hd v).mpr h'.1)]
        obtain ⟨x1, et, hx1, ht, rfl⟩ := (hl u v y).mp hy
        have : x1 = x0 := edge_unique ha hx1 hx0
        subst this
        cases x; simp_all
      · refine ⟨{ x0 with etype := some et }, (hl u v _).mpr ⟨x0, et, hx0, ht, rfl⟩, ?_⟩
        rw [if_neg (fun h' => hnd ((hd v).mp h'))]
        cases x; simp_all
  refine ⟨fun w => ?_, hlook⟩
  rw [keys_fromDicts l1, l2, hk]
  constructor
  · rintro (h' | ⟨u, x, hx⟩)
    · exact h'
    · rw [← look_fromDicts l1, hlook] at hx
      obtain ⟨x0, hx0, _⟩ := hx
      exact Or.inr ⟨u, x0, hx0⟩
  · exact Or.inl

/-- C58, C59: when a graph comes back: the argument is a matrix or a dict that is not empty, `edge_type` is not an
empty dict, and it types edges of the argument only. -/
theorem C58_when_ok {a : AdjArg A} {ty : TypeArg} (ha : ArgOk a) (hty : TypeOk ty) (two : Bool) :
    (∃ g, adjacency2graph a ty two = .ok g) ↔
      a ≠ .other ∧ a ≠ .dicts [] ∧ a ≠ .lists [] ∧ ty ≠ .dicts [] ∧
      ∀ u v et, HasType ty u v et → ∃ x, IsEdge a u v x := by
  have htyok : (∃ d, types ty = .ok d) ↔ ty ≠ .dicts [] := by
    cases ty with
    | none => simp [types]
    | matrix n m => simp [types]
    | dicts d => by_cases hd : d = [] <;> simp [types, hd]
  have hargok := ofArg_error a
  constructor
  · rintro ⟨g, hg⟩
    unfold adjacency2graph at hg
    cases h1 : ofArg a with
    | error e => rw [h1] at hg; simp at hg
    | ok ga =>
      cases h2 : types ty with
      | error e => rw [h1, h2] at hg; simp at hg
      | ok d =>
        rw [h1, h2] at hg
        simp only at hg
        obtain ⟨c1, c2, c3⟩ := hargok.mp ⟨ga, h1⟩
        refine ⟨c1, c2, c3, htyok.mp ⟨d, h2⟩, fun u v et ht => ?_⟩
        obtain ⟨hok, hl, _⟩ := ofArg_spec ha h1
        obtain ⟨hd1, hd2, hd3⟩ := types_spec hty h2
        by_contra hno
        have : ga.look u v = none := by
          cases hx : ga.look u v with
          | none => rfl
          | some x => exact absurd ⟨x, (hl _ _ _).mp hx⟩ hno
        rw [(setTypes_spec d hok hd1 hd2).1 ⟨u, v, by rw [(hd3 _ _ _).mpr ht]; rfl, this⟩] at hg
        simp at hg
  · rintro ⟨c1, c2, c3, c4, c5⟩
    obtain ⟨ga, h1⟩ := hargok.mpr ⟨c1, c2, c3⟩
    obtain ⟨d, h2⟩ := htyok.mpr c4
    obtain ⟨hok, hl, _⟩ := ofArg_spec ha h1
    obtain ⟨hd1, hd2, hd3⟩ := types_spec hty h2
    obtain ⟨g1, hs, _⟩ := (setTypes_spec d hok hd1 hd2).2 (fun u v huv hn => by
      obtain ⟨et, het⟩ := Option.isSome_iff_exists.mp huv
      obtain ⟨x, hx⟩ := c5 u v et ((hd3 _ _ _).mp het)
      rw [(hl _ _ _).mpr hx] at hn; simp at hn)
    exact ⟨fromDicts (adjust (fromDicts g1) two), by unfold adjacency2graph; rw [h1, h2]; simp only [hs]⟩

/-- C58, C59: otherwise TypeError is raised if `adjacency` is no matrix and no dict, and KeyError in the other cases. -/
theorem C58_error {a : AdjArg A} {ty : TypeArg} {two : Bool} {e : Err} (h : adjacency2graph a ty two = .error e) :
    (a = .other ∧ e = .typeError) ∨ (a ≠ .other ∧ e = .keyError) := by
  unfold adjacency2graph at h
  cases h1 : ofArg a with
  | error e' =>
    rw [h1] at h
    simp only [Except.error.injEq] at h
    subst h
    cases a with
    | matrix n nz => simp [ofArg] at h1
    | dicts d =>
      right; by_cases hd : d = []
      · simp only [ofArg, hd, if_true, Except.error.injEq] at h1; exact ⟨by simp, h1.symm⟩
      · simp [ofArg, hd] at h1
    | lists d =>
      right; by_cases hd : d = []
      · simp only [ofArg, hd, if_true, Except.error.injEq] at h1; exact ⟨by simp, h1.symm⟩
      · simp [ofArg, hd] at h1
    | other => left; simp only [ofArg, Except.error.injEq] at h1; exact ⟨rfl, h1.symm⟩
  | ok g =>
    right
    refine ⟨fun ha => ?_, ?_⟩
    · subst ha; simp [ofArg] at h1
    rw [h1] at h
    cases h2 : types ty with
    | error e' =>
      rw [h2] at h
      simp only [Except.error.injEq] at h
      subst h
      cases ty with
      | none => simp [types] at h2
      | matrix n m => simp [types] at h2
      | dicts d =>
        by_cases hd : d = []
        · simp only [types, hd, if_true, Except.error.injEq] at h2; exact h2.symm
        · simp [types, hd] at h2
    | ok d =>
      rw [h2] at h
      simp only at h
      cases h3 : setTypes g d with
      | none => rw [h3] at h; simp only [Except.error.injEq] at h; exact h.symm
      | some g' => rw [h3] at h; simp at h

theorem adjacency2graph_ok {a : AdjArg A} {ty : TypeArg} (ha : ArgOk a) (hty : TypeOk ty) {two : Bool}
    {g : Adj A} (h : adjacency2graph a ty two = .ok g) : g.Ok := by
  obtain ⟨g0, hok, rfl, _⟩ := prep_spec ha hty h
  apply fromDicts_ok
  split
  · exact (markNull_spec hok).1
  · exact (addLoops_spec hok).1

/-! ## C60 -/

/-- C60. The edges made from a matrix are exactly its non-zero entries (`adjust = 2` adds none), and the
vertices its rows. -/
theorem C60_matrix {n : Nat} {nz : Nat → Nat → Bool} {g : Adj A}
    (h : adjacency2graph (.matrix n nz) .none true = .ok g) :
    (∀ w, w ∈ Dict.keys g ↔ w < n) ∧
    ∀ u v, (u, v) ∈ g.edges ↔ u < n ∧ v < n ∧ nz u v = true := by
  have hok := adjacency2graph_ok (a := .matrix n nz) (ty := .none) trivial trivial h
  obtain ⟨h1, h2⟩ := C59_adjust_two (a := .matrix n nz) (ty := .none) trivial trivial h
  refine ⟨fun w => ?_, fun u v => ?_⟩
  · rw [h1]
    unfold IsVertex IsRow IsEdge
    constructor
    · rintro (h' | ⟨u, x, h'⟩)
      · exact h'
      · exact h'.2.1
    · exact Or.inl
  · rw [mem_edges hok, Option.isSome_iff_exists]
    constructor
    · rintro ⟨x, hx⟩
      obtain ⟨x0, h', _⟩ := (h2 u v x).mp hx
      exact ⟨h'.1, h'.2.1, h'.2.2.1⟩
    · rintro ⟨a1, a2, a3⟩
      have he : IsEdge (A := A) (.matrix n nz) u v ⟨none, ∅⟩ := ⟨a1, a2, a3, rfl⟩
      by_cases hd : Dead (A := A) (.matrix n nz) v
      · exact ⟨⟨some 0, ∅⟩, (h2 u v _).mpr ⟨_, he, rfl, Or.inl ⟨hd, rfl⟩⟩⟩
      · exact ⟨⟨some 1, ∅⟩, (h2 u v _).mpr ⟨_, he, rfl, Or.inr ⟨hd, 1, Or.inr ⟨by simp [HasType], Or.inr ⟨rfl, rfl⟩⟩, rfl⟩⟩⟩

/-- C60. Two arguments that describe the same vertices and edges give the same graph: the result does not
depend on the form (matrix, dict of dicts, dict of lists) or the order in dicts. -/
theorem C60_forms_agree {a a' : AdjArg A} {ty : TypeArg} (ha : ArgOk a) (ha' : ArgOk a') (hty : TypeOk ty) {two : Bool}
    (hv : ∀ w, IsVertex a w ↔ IsVertex a' w) (he : ∀ u v x, IsEdge a u v x ↔ IsEdge a' u v x)
    {g g' : Adj A} (h : adjacency2graph a ty two = .ok g) (h' : adjacency2graph a' ty two = .ok g') :
    (∀ w, w ∈ Dict.keys g ↔ w ∈ Dict.keys g') ∧ ∀ u v, g.look u v = g'.look u v := by
  have hd : ∀ w, Dead a w ↔ Dead a' w := by intro w; unfold Dead; rw [hv]; simp only [he]
  cases two with
  | false =>
    obtain ⟨k1, l1, _⟩ := C58_adjust_one ha hty h
    obtain ⟨k2, l2, _⟩ := C58_adjust_one ha' hty h'
    refine ⟨fun w => by rw [k1, k2, hv], fun u v => Option.ext fun x => ?_⟩
    rw [l1, l2, hd]; simp only [he]
  | true =>
    obtain ⟨k1, l1⟩ := C59_adjust_two ha hty h
    obtain ⟨k2, l2⟩ := C59_adjust_two ha' hty h'
    refine ⟨fun w => by rw [k1, k2, hv], fun u v => Option.ext fun x => ?_⟩
    rw [l1, l2, hd]; simp only [he]

/-- Every edge has a type and leads to a vertex, and dead ends are as `adjust` leaves them. -/
theorem adjusted {a : AdjArg A} {ty : TypeArg} (ha : ArgOk a) (hty : TypeOk ty) {two : Bool} {g : Adj A}
    (h : adjacency2graph a ty two = .ok g) :
    (∀ u v x, g.look u v = some x → x.etype ≠ none ∧ v ∈ Dict.keys g) ∧
    (two = false → ∀ w ∈ Dict.keys g, ∃ v x, g.look w v = some x) ∧
    (two = true → ∀ u v x, g.look u v = some x → (∀ j, g.look v j = none) → x.etype = some 0) := by
  cases two with
  | false =>
    obtain ⟨k1, l1, o1, t1⟩ := C58_adjust_one ha hty h
    refine ⟨fun u v x hx => ⟨t1 u v x hx, ?_⟩, fun _ => o1, by simp⟩
    rw [k1]
    rcases (l1 u v x).mp hx with ⟨x0, _, hx0, _⟩ | ⟨hd, rfl, _⟩
    · exact Or.inr ⟨u, x0, hx0⟩
    · exact hd.1
  | true =>
    obtain ⟨k1, l1⟩ := C59_adjust_two ha hty h
    refine ⟨fun u v x hx => ?_, by simp, fun _ u v x hx hn => ?_⟩
    · obtain ⟨x0, hx0, _, h' | ⟨_, et, _, h'⟩⟩ := (l1 u v x).mp hx
      · exact ⟨by rw [h'.2]; simp, (k1 v).mpr (Or.inr ⟨u, x0, hx0⟩)⟩
      · exact ⟨by rw [h']; simp, (k1 v).mpr (Or.inr ⟨u, x0, hx0⟩)⟩
    · obtain ⟨x0, hx0, _, h' | ⟨hnd, _⟩⟩ := (l1 u v x).mp hx
      · exact h'.2
      · exfalso
        apply hnd
        refine ⟨Or.inr ⟨u, x0, hx0⟩, fun j y hy => ?_⟩
        have : ∃ z, g.look v j = some z := by
          by_cases hdj : Dead a j
          · exact ⟨⟨some 0, y.rest⟩, (l1 v j _).mpr ⟨y, hy, rfl, Or.inl ⟨hdj, rfl⟩⟩⟩
          · obtain ⟨et, het⟩ : ∃ et, Typed ty v j y et := by
              by_cases ht : ∃ et, HasType ty v j et
              · exact ⟨_, Or.inl ht.choose_spec⟩
              · push Not at ht
                cases hy' : y.etype with
                | none => exact ⟨1, Or.inr ⟨ht, Or.inr ⟨hy', rfl⟩⟩⟩
                | some et => exact ⟨et, Or.inr ⟨ht, Or.inl hy'⟩⟩
            exact ⟨⟨some et, y.rest⟩, (l1 v j _).mpr ⟨y, hy, rfl, Or.inr ⟨hdj, et, het, rfl⟩⟩⟩
        obtain ⟨z, hz⟩ := this
        rw [hn j] at hz; simp at hz

/-- C60. `graph2dict` is inverse to `adjacency2graph`: the dict of dicts of a graph it made gives this graph
again, types and attributes included. -/
theorem C60_graph2dict {a : AdjArg A} {ty : TypeArg} (ha : ArgOk a) (hty : TypeOk ty) {two : Bool}
    {g : Adj A} (h : adjacency2graph a ty two = .ok g) (hne : g ≠ []) :
    ∃ g', adjacency2graph (.dicts g) .none two = .ok g' ∧
      (∀ w, w ∈ Dict.keys g' ↔ w ∈ Dict.keys g) ∧ ∀ u v, g'.look u v = g.look u v := by
  have hok := adjacency2graph_ok ha hty h
  have hag : ArgOk (.dicts g) := hok
  obtain ⟨p1, p2, p3⟩ := adjusted ha hty h
  have he : ∀ u v x, IsEdge (.dicts g) u v x ↔ g.look u v = some x := fun u v x => (look_iff hok).symm
  have hv : ∀ w, IsVertex (.dicts g) w ↔ w ∈ Dict.keys g := by
    intro w
    unfold IsVertex
    simp only [he]
    have : IsRow (.dicts g) w ↔ w ∈ Dict.keys g := by simp [IsRow, Dict.keys]
    rw [this]
    exact ⟨fun h' => h'.elim id fun ⟨u, x, hx⟩ => (p1 u w x hx).2, Or.inl⟩
  have hd : ∀ w, Dead (.dicts g) w ↔ w ∈ Dict.keys g ∧ ∀ v, g.look w v = none := by
    intro w
    unfold Dead
    rw [hv]
    simp only [he]
    refine and_congr_right fun _ => forall_congr' fun v => ?_
    cases g.look w v <;> simp
  obtain ⟨g', hg'⟩ := (C58_when_ok (a := .dicts g) (ty := .none) hag trivial two).mpr
    ⟨by simp, by simpa using hne, by simp, by simp, by simp [HasType]⟩
  refine ⟨g', hg', ?_⟩
  have htyped : ∀ u v (x : EAttr A) et, Typed .none u v x et ↔ x.etype = some et ∨ (x.etype = none ∧ et = 1) := by
    intro u v x et; simp [Typed, HasType]
  cases two with
  | false =>
    obtain ⟨k1, l1, _⟩ := C58_adjust_one (a := .dicts g) (ty := .none) hag trivial hg'
    refine ⟨fun w => by rw [k1, hv], fun u v => Option.ext fun x => ?_⟩
    rw [l1]
    constructor
    · rintro (⟨x0, et, hx0, ht, rfl⟩ | ⟨hdu, _⟩)
      · rw [he] at hx0
        rw [htyped] at ht
        rcases ht with ht | ⟨ht, _⟩
        · rw [hx0]; cases x0; simp_all
        · exact absurd ht (p1 u v x0 hx0).1
      · rw [hd] at hdu
        obtain ⟨j, y, hy⟩ := p2 rfl u hdu.1
        rw [hdu.2 j] at hy; simp at hy
    · intro hx
      obtain ⟨et, het⟩ := Option.ne_none_iff_exists'.mp (p1 u v x hx).1
      exact Or.inl ⟨x, et, (he _ _ _).mpr hx, (htyped _ _ _ _).mpr (Or.inl het), by cases x; simp_all⟩
  | true =>
    obtain ⟨k1, l1⟩ := C59_adjust_two (a := .dicts g) (ty := .none) hag trivial hg'
    refine ⟨fun w => by rw [k1, hv], fun u v => Option.ext fun x => ?_⟩
    rw [l1]
    constructor
    · rintro ⟨x0, hx0, hr, ⟨hdv, h0⟩ | ⟨_, et, ht, hxe⟩⟩
      · rw [he] at hx0
        rw [hd] at hdv
        have := p3 rfl u v x0 hx0 hdv.2
        rw [hx0]; cases x; cases x0; simp_all
      · rw [he] at hx0
        rw [htyped] at ht
        rcases ht with ht | ⟨ht, _⟩
        · rw [hx0]; cases x; cases x0; simp_all
        · exact absurd ht (p1 u v x0 hx0).1
    · intro hx
      obtain ⟨et, het⟩ := Option.ne_none_iff_exists'.mp (p1 u v x hx).1
      refine ⟨x, (he _ _ _).mpr hx, rfl, ?_⟩
      by_cases hdv : Dead (.dicts g) v
      · exact Or.inl ⟨hdv, p3 rfl u v x hx ((hd v).mp hdv).2⟩
      · exact Or.inr ⟨hdv, et, (htyped _ _ _ _).mpr (Or.inl het), het⟩

/-- C60. The dict of lists of such a graph (`graph2dict(g, False)`) has the same vertices and edges; the types
and attributes are lost. -/
theorem C60_graph2lists {a : AdjArg A} {ty : TypeArg} (ha : ArgOk a) (hty : TypeOk ty) {two : Bool}
    {g : Adj A} (h : adjacency2graph a ty two = .ok g) (hne : g ≠ []) :
    ∃ g', adjacency2graph (A := A) (.lists (graph2lists g)) .none two = .ok g' ∧
      (∀ w, w ∈ Dict.keys g' ↔ w ∈ Dict.keys g) ∧ ∀ u v, (g'.look u v).isSome ↔ (g.look u v).isSome := by
  have hok := adjacency2graph_ok ha hty h
  obtain ⟨p1, p2, p3⟩ := adjusted ha hty h
  have hkeys : (graph2lists g).map Prod.fst = Dict.keys g := by simp [graph2lists, Dict.keys, Function.comp_def]
  have hag : ArgOk (A := A) (.lists (graph2lists g)) := by
    show ((graph2lists g).map Prod.fst).Nodup
    rw [hkeys]; exact hok.1
  have he : ∀ u v (x : EAttr A), IsEdge (.lists (graph2lists g)) u v x ↔ (g.look u v).isSome ∧ x = ⟨none, ∅⟩ := by
    intro u v x
    unfold IsEdge graph2lists
    rw [Option.isSome_iff_exists]
    simp only [look_iff hok]
    constructor
    · rintro ⟨p, hp, rfl, hv, rfl⟩
      obtain ⟨q, hq, rfl⟩ := List.mem_map.mp hp
      obtain ⟨r, hr, rfl⟩ := List.mem_map.mp hv
      exact ⟨⟨r.2, q, hq, rfl, hr⟩, rfl⟩
    · rintro ⟨⟨y, q, hq, rfl, hy⟩, rfl⟩
      exact ⟨_, List.mem_map.mpr ⟨q, hq, rfl⟩, rfl, List.mem_map.mpr ⟨_, hy, rfl⟩, rfl⟩
  have hv : ∀ w, IsVertex (A := A) (.lists (graph2lists g)) w ↔ w ∈ Dict.keys g := by
    intro w
    unfold IsVertex
    simp only [he]
    have : IsRow (A := A) (.lists (graph2lists g)) w ↔ w ∈ Dict.keys g := by
      rw [← hkeys]; simp only [IsRow, List.mem_map]
    rw [this]
    refine ⟨fun h' => h'.elim id fun ⟨u, x, hx, _⟩ => ?_, Or.inl⟩
    obtain ⟨y, hy⟩ := Option.isSome_iff_exists.mp hx
    exact (p1 u w y hy).2
  obtain ⟨g', hg'⟩ := (C58_when_ok (a := .lists (graph2lists g)) (ty := .none) hag trivial two).mpr
    ⟨by simp, by simp, by
      intro h'
      simp only [AdjArg.lists.injEq] at h'
      exact hne (List.map_eq_nil_iff.mp h'), by simp, by simp [HasType]⟩
  have htyped : ∀ u v (x : EAttr A), ∃ et, Typed .none u v x et := by
    intro u v x
    cases hx : x.etype with
    | none => exact ⟨1, Or.inr ⟨by simp [HasType], Or.inr ⟨hx, rfl⟩⟩⟩
    | some et => exact ⟨et, Or.inr ⟨by simp [HasType], Or.inl hx⟩⟩
  refine ⟨g', hg', ?_⟩
  cases two with
  | false =>
    obtain ⟨k1, l1, _⟩ := C58_adjust_one (a := .lists (graph2lists g)) (ty := .none) hag trivial hg'
    refine ⟨fun w => by rw [k1, hv], fun u v => ?_⟩
    rw [Option.isSome_iff_exists]
    constructor
    · rintro ⟨x, hx⟩
      rcases (l1 u v x).mp hx with ⟨x0, et, hx0, _⟩ | ⟨hdu, _⟩
      · exact ((he _ _ _).mp hx0).1
      · exfalso
        obtain ⟨j, y, hy⟩ := p2 rfl u ((hv u).mp hdu.1)
        exact hdu.2 j _ ((he _ _ _).mpr ⟨by rw [hy]; rfl, rfl⟩)
    · intro hs
      obtain ⟨et, het⟩ := htyped u v ⟨none, ∅⟩
      exact ⟨_, (l1 u v _).mpr (Or.inl ⟨_, et, (he _ _ _).mpr ⟨hs, rfl⟩, het, rfl⟩)⟩
  | true =>
    obtain ⟨k1, l1⟩ := C59_adjust_two (a := .lists (graph2lists g)) (ty := .none) hag trivial hg'
    refine ⟨fun w => by rw [k1, hv], fun u v => ?_⟩
    rw [Option.isSome_iff_exists]
    constructor
    · rintro ⟨x, hx⟩
      obtain ⟨x0, hx0, _⟩ := (l1 u v x).mp hx
      exact ((he _ _ _).mp hx0).1
    · intro hs
      obtain ⟨et, het⟩ := htyped u v ⟨none, ∅⟩
      have hx0 := (he u v _).mpr ⟨hs, rfl⟩
      by_cases hdv : Dead (A := A) (.lists (graph2lists g)) v
      · exact ⟨⟨some 0, ∅⟩, (l1 u v _).mpr ⟨_, hx0, rfl, Or.inl ⟨hdv, rfl⟩⟩⟩
      · exact ⟨⟨some et, ∅⟩, (l1 u v _).mpr ⟨_, hx0, rfl, Or.inr ⟨hdv, et, het, rfl⟩⟩⟩

end

/-! ## C57 -/

namespace GSpec

variable {A : Type*}

/-- The graphs made by the constructor, `add_edge`, `set_ep` and `new_edge_property`. -/
inductive Built [EmptyCollection A] : QGraph A → Prop
  | new {g : Adj A} : g.Ok → Built (QGraph.ofAdj g)
  | add {g : QGraph A} (u v : Nat) : Built g → Built (g.addEdge u v)
  | ep {g g' : QGraph A} (e : Nat × Nat) (t : Int) : Built g → g.setEp e t = some g' → Built g'
  | prop {g : QGraph A} : Built g → Built g.newEdgeType

end GSpec

section

variable {A : Type*} [EmptyCollection A]

/-- `edge_index` numbers the edges. -/
structure Numbered (g : QGraph A) : Prop where
  ok : g.adj.Ok
  dict : Dict.Ok g.index
  edges : ∀ e, (Dict.get? g.index e).isSome ↔ e ∈ g.adj.edges
  lt : ∀ e k, Dict.get? g.index e = some k → k < g.nE
  inj : ∀ e e' k, Dict.get? g.index e = some k → Dict.get? g.index e' = some k → e = e'
  onto : ∀ k < g.nE, ∃ e, Dict.get? g.index e = some k
  count : g.nE = g.adj.edges.length

instance : Std.Total edgeLe := ⟨fun a b => by unfold edgeLe; omega⟩
instance : IsTrans (Nat × Nat) edgeLe := ⟨fun a b c => by unfold edgeLe; omega⟩

theorem zipIdx_get? {l : List (Nat × Nat)} (h : l.Nodup) (e : Nat × Nat) (k : Nat) :
    Dict.get? (V := Nat) l.zipIdx e = some k ↔ l[k]? = some e := by
  have hok : Dict.Ok (K := Nat × Nat) (V := Nat) l.zipIdx := by
    unfold Dict.Ok Dict.keys
    have := List.zipIdx_map_fst 0 l
    rw [this]; exact h
  rw [← Dict.mem_iff hok, List.mem_zipIdx_iff_getElem?]

omit [EmptyCollection A] in
theorem numbered_new {g : Adj A} (hg : g.Ok) : Numbered (QGraph.ofAdj g) := by
  have hn : (g.edges.insertionSort edgeLe).Nodup :=
    (List.perm_insertionSort edgeLe g.edges).nodup_iff.mpr (Adj.edges_nodup hg)
  have hlen : (g.edges.insertionSort edgeLe).length = g.edges.length := List.length_insertionSort ..
  refine ⟨hg, ?_, fun e => ?_, fun e k h => ?_, fun e e' k h h' => ?_, fun k hk => ?_, rfl⟩
  · unfold Dict.Ok Dict.keys QGraph.ofAdj
    have := List.zipIdx_map_fst 0 (g.edges.insertionSort edgeLe)
    rw [this]; exact hn
  · rw [Dict.get?_isSome]
    unfold Dict.keys QGraph.ofAdj
    have := List.zipIdx_map_fst 0 (g.edges.insertionSort edgeLe)
    rw [this, List.mem_insertionSort]
  · have h' := (zipIdx_get? hn e k).mp h
    have := (List.getElem?_eq_some_iff.mp h').1
    rw [hlen] at this; exact this
  · have h1 := (zipIdx_get? hn e k).mp h
    have h2 := (zipIdx_get? hn e' k).mp h'
    rw [h1] at h2; simpa using h2
  · have hk' : k < (g.edges.insertionSort edgeLe).length := by rw [hlen]; exact hk
    exact ⟨_, (zipIdx_get? hn _ k).mpr (List.getElem?_eq_getElem hk')⟩

omit [EmptyCollection A] in
theorem look_addEdge (g : Adj A) (u v : Nat) (x : EAttr A) (i j : Nat) :
    (g.addEdge u v x).look i j = if i = u ∧ j = v then some x else g.look i j := by
  unfold Adj.look
  rw [Adj.get?_addEdge]
  by_cases hi : i = u
  · subst hi
    simp only [if_true, Option.bind_some, Dict.get?_set, true_and]
    split
    · rfl
    · cases Dict.get? g i <;> simp [Dict.get?]
  · simp only [hi, if_false, false_and]
    cases Dict.get? g i with
    | some d => simp
    | none => simp only [Option.none_or, Option.bind_none]; split <;> rfl

omit [EmptyCollection A] in
theorem addEdge_ok {g : Adj A} (hg : g.Ok) (u v : Nat) (x : EAttr A) : (g.addEdge u v x).Ok := by
  rw [Adj.ok_iff]
  refine ⟨Adj.addEdge_dictOk hg.1 u v x, fun i d hd => ?_⟩
  rw [Adj.get?_addEdge] at hd
  split at hd
  · simp only [Option.some.injEq] at hd
    subst hd
    refine Dict.Ok.set ?_ _ _
    cases hu : Dict.get? g u with
    | none => exact List.nodup_nil
    | some d => exact (Adj.ok_iff.mp hg).2 u d hu
  · cases hi : Dict.get? g i with
    | some d' =>
      rw [hi] at hd
      simp only [Option.some_or, Option.some.injEq] at hd
      subst hd; exact (Adj.ok_iff.mp hg).2 i _ hi
    | none =>
      rw [hi] at hd
      simp only [Option.none_or] at hd
      split at hd
      · simp only [Option.some.injEq] at hd; subst hd; exact List.nodup_nil
      · simp at hd

theorem numbered_add {g : QGraph A} (h : Numbered g) (u v : Nat) : Numbered (g.addEdge u v) := by
  have hiff : (Dict.get? g.index (u, v)).isSome ↔ (g.adj.look u v).isSome :=
    (h.edges (u, v)).trans (Adj.mem_edges h.ok)
  unfold QGraph.addEdge
  by_cases hs : (g.adj.look u v).isSome
  · simp only [hs, if_true, hiff.mpr hs]
    exact h
  · have hs' : ¬ (Dict.get? g.index (u, v)).isSome := fun h' => hs (hiff.mp h')
    simp only [hs, hs', Bool.false_eq_true, if_false]
    have hnone : Dict.get? g.index (u, v) = none := by simpa using hs'
    have hok := addEdge_ok h.ok u v (⟨none, ∅⟩ : EAttr A)
    have hmem : ∀ e : Nat × Nat, e ∈ (g.adj.addEdge u v ⟨none, ∅⟩).edges ↔ e = (u, v) ∨ e ∈ g.adj.edges := by
      rintro ⟨i, j⟩
      rw [Adj.mem_edges hok, look_addEdge, Adj.mem_edges h.ok]
      by_cases he : i = u ∧ j = v
      · simp [he]
      · simp only [he, if_false, Prod.mk.injEq, false_or]
    refine ⟨hok, h.dict.set _ _, fun e => ?_, fun e k hk => ?_, fun e e' k hk hk' => ?_, fun k hk => ?_, ?_⟩
    · rw [hmem, Dict.get?_set, ← h.edges]
      by_cases he : e = (u, v) <;> simp [he]
    · simp only [Dict.get?_set] at hk
      split at hk
      · simp only [Option.some.injEq] at hk; subst hk; exact Nat.lt_succ_self _
      · exact Nat.lt_succ_of_lt (h.lt e k hk)
    · simp only [Dict.get?_set] at hk hk'
      split at hk <;> split at hk'
      · simp_all
      · simp only [Option.some.injEq] at hk; subst hk
        exact absurd (h.lt e' _ hk') (lt_irrefl _)
      · simp only [Option.some.injEq] at hk'; subst hk'
        exact absurd (h.lt e _ hk) (lt_irrefl _)
      · exact h.inj e e' k hk hk'
    · simp only [Dict.get?_set]
      by_cases hk' : k = g.nE
      · subst hk'; exact ⟨(u, v), by simp⟩
      · obtain ⟨e, he⟩ := h.onto k (by simp only at hk; omega)
        refine ⟨e, ?_⟩
        rw [if_neg]
        · exact he
        · rintro rfl; rw [hnone] at he; simp at he
    · have hne : (u, v) ∉ g.adj.edges := by rw [← h.edges]; exact hs'
      have hp : List.Perm (g.adj.addEdge u v ⟨none, ∅⟩).edges ((u, v) :: g.adj.edges) := by
        rw [List.perm_ext_iff_of_nodup (Adj.edges_nodup hok)
          (List.nodup_cons.mpr ⟨hne, Adj.edges_nodup h.ok⟩)]
        intro e
        rw [hmem]; simp
      rw [hp.length_eq]
      simp [h.count]

omit [EmptyCollection A] in
/-- Changes of attributes keep the numbers. -/
theorem Numbered.same {g : QGraph A} (h : Numbered g) {a : Adj A} (ha : a.Ok)
    (hl : ∀ i j, (a.look i j).isSome = (g.adj.look i j).isSome) : Numbered { g with adj := a } := by
  have hmem : ∀ e, e ∈ a.edges ↔ e ∈ g.adj.edges := by
    rintro ⟨i, j⟩
    rw [Adj.mem_edges ha, Adj.mem_edges h.ok, hl]
  have hp : List.Perm a.edges g.adj.edges :=
    (List.perm_ext_iff_of_nodup (Adj.edges_nodup ha) (Adj.edges_nodup h.ok)).mpr hmem
  exact ⟨ha, h.dict, fun e => (h.edges e).trans (hmem e).symm, h.lt, h.inj, h.onto, h.count.trans hp.length_eq.symm⟩

omit [EmptyCollection A] in
theorem clearTypes_spec {g : Adj A} (hg : g.Ok) : g.clearTypes.Ok ∧ Dict.keys g.clearTypes = Dict.keys g ∧
    ∀ u v, g.clearTypes.look u v = (g.look u v).map fun x => { x with etype := none } := by
  refine ⟨?_, ?_, fun u v => ?_⟩
  · refine Adj.map_ok hg (fun _ d => d.map fun q => (q.1, { q.2 with etype := none })) fun u d hd => ?_
    unfold Dict.Ok
    have := Dict.keys_map d (fun _ (x : EAttr A) => { x with etype := none })
    exact this ▸ hd
  · exact Dict.keys_map g (fun _ d => d.map fun q => (q.1, { q.2 with etype := none }))
  · unfold Adj.clearTypes
    rw [Adj.map_look (F := fun _ d => d.map fun q => (q.1, { q.2 with etype := none }))]
    unfold Adj.look
    cases Dict.get? g u with
    | none => rfl
    | some d =>
      simp only [Option.bind_some]
      exact Dict.get?_map d (fun _ x => { x with etype := none }) v

omit [EmptyCollection A] in
theorem setEp_spec {g : QGraph A} (hg : g.adj.Ok) (e : Nat × Nat) (t : Int) :
    (g.adj.look e.1 e.2 = none → g.setEp e t = none) ∧
    ∀ x, g.adj.look e.1 e.2 = some x → ∃ g', g.setEp e t = some g' ∧ g'.adj.Ok ∧ Dict.keys g'.adj = Dict.keys g.adj ∧
      g'.index = g.index ∧ g'.nE = g.nE ∧
      ∀ i j, g'.adj.look i j = if i = e.1 ∧ j = e.2 then some { x with etype := some t } else g.adj.look i j := by
  obtain ⟨h1, h2⟩ := Adj.setType_spec hg e.1 e.2 t
  unfold QGraph.setEp
  refine ⟨fun h => by rw [h1 h], fun x hx => ?_⟩
  obtain ⟨a, ha, hok, hk, hl⟩ := h2 x hx
  exact ⟨{ g with adj := a }, by rw [ha], hok, hk, rfl, rfl, hl⟩

omit [EmptyCollection A] in
theorem numbered_ep {g g' : QGraph A} (h : Numbered g) {e : Nat × Nat} {t : Int} (he : g.setEp e t = some g') :
    Numbered g' := by
  obtain ⟨h1, h2⟩ := setEp_spec h.ok e t
  cases hx : g.adj.look e.1 e.2 with
  | none => rw [h1 hx] at he; simp at he
  | some x =>
    obtain ⟨g2, hg2, hok, -, hi, hn, hl⟩ := h2 x hx
    rw [hg2] at he
    simp only [Option.some.injEq] at he
    subst he
    have := h.same hok (fun i j => by
      rw [hl]
      split
      · rename_i hij; rw [hij.1, hij.2, hx]; rfl
      · rfl)
    rw [← hi, ← hn] at this
    exact this

omit [EmptyCollection A] in
theorem numbered_prop {g : QGraph A} (h : Numbered g) : Numbered g.newEdgeType := by
  obtain ⟨h1, -, h3⟩ := clearTypes_spec h.ok
  exact h.same h1 (fun i j => by rw [h3]; cases g.adj.look i j <;> rfl)

theorem Numbered.of_built {g : QGraph A} (h : Built g) : Numbered g := by
  induction h with
  | new hg => exact numbered_new hg
  | add u v _ ih => exact numbered_add ih u v
  | ep e t _ he ih => exact numbered_ep ih he
  | prop _ ih => exact numbered_prop ih

/-- C57. In every graph made by the constructor and any calls of `add_edge`, `edge_index` is a bijection between
the edges of the graph and the numbers below the number of edges. -/
theorem C57_edge_index {g : QGraph A} (h : Built g) :
    (∀ e, (∃ k, Dict.get? g.index e = some k) ↔ e ∈ g.adj.edges) ∧
    (∀ e k, Dict.get? g.index e = some k → k < g.adj.edges.length) ∧
    (∀ e e' k, Dict.get? g.index e = some k → Dict.get? g.index e' = some k → e = e') ∧
    (∀ k < g.adj.edges.length, ∃ e, Dict.get? g.index e = some k) := by
  have hn := Numbered.of_built h
  refine ⟨fun e => ?_, fun e k hk => hn.count ▸ hn.lt e k hk, hn.inj, fun k hk => hn.onto k (hn.count ▸ hk)⟩
  rw [← hn.edges, Option.isSome_iff_exists]

/-- C57. `add_edge` adds this edge and no other, and numbers of other edges stay. -/
theorem C57_add_edge {g : QGraph A} (h : Built g) (u v : Nat) :
    (∀ e, e ∈ (g.addEdge u v).adj.edges ↔ e = (u, v) ∨ e ∈ g.adj.edges) ∧
    (∀ e k, Dict.get? g.index e = some k → Dict.get? (g.addEdge u v).index e = some k) ∧
    ∀ i j x, g.adj.look i j = some x → (g.addEdge u v).adj.look i j = some x := by
  have hn := Numbered.of_built h
  have hn' := numbered_add hn u v
  have hadj : (g.addEdge u v).adj =
      if (g.adj.look u v).isSome then g.adj else g.adj.addEdge u v ⟨none, ∅⟩ := by
    unfold QGraph.addEdge; simp only; split <;> rfl
  refine ⟨?_, fun e k hk => ?_, fun i j x hx => ?_⟩
  · rintro ⟨i, j⟩
    rw [Adj.mem_edges hn'.ok, hadj, Adj.mem_edges hn.ok, Prod.mk.injEq]
    split
    · rename_i hs
      constructor
      · exact Or.inr
      · rintro (⟨rfl, rfl⟩ | h')
        · exact hs
        · exact h'
    · rw [look_addEdge]
      by_cases he : i = u ∧ j = v <;> simp [he]
  · unfold QGraph.addEdge
    simp only
    split
    · exact hk
    · rename_i hs
      simp only [Dict.get?_set]
      rw [if_neg]
      · exact hk
      · rintro rfl; rw [hk] at hs; simp at hs
  · rw [hadj]
    split
    · exact hx
    · rename_i hs
      rw [look_addEdge, if_neg]
      · exact hx
      · rintro ⟨rfl, rfl⟩; rw [hx] at hs; simp at hs

omit [EmptyCollection A] in
/-- C57. On construction the numbers increase with the edge (as a pair). -/
theorem C57_increasing {g : Adj A} (hg : g.Ok) {e e' : Nat × Nat} {k k' : Nat}
    (he : Dict.get? (QGraph.ofAdj g).index e = some k) (he' : Dict.get? (QGraph.ofAdj g).index e' = some k') :
    k < k' ↔ e.1 < e'.1 ∨ (e.1 = e'.1 ∧ e.2 < e'.2) := by
  have hn : (g.edges.insertionSort edgeLe).Nodup :=
    (List.perm_insertionSort edgeLe g.edges).nodup_iff.mpr (Adj.edges_nodup hg)
  have hs : (g.edges.insertionSort edgeLe).Pairwise edgeLe := List.pairwise_insertionSort edgeLe g.edges
  have h1 := (zipIdx_get? hn e k).mp he
  have h2 := (zipIdx_get? hn e' k').mp he'
  obtain ⟨b1, c1⟩ := List.getElem?_eq_some_iff.mp h1
  obtain ⟨b2, c2⟩ := List.getElem?_eq_some_iff.mp h2
  have key : ∀ i j (hi : i < (g.edges.insertionSort edgeLe).length) (hj : j < (g.edges.insertionSort edgeLe).length),
      i < j → edgeLe (g.edges.insertionSort edgeLe)[i] (g.edges.insertionSort edgeLe)[j] :=
    fun i j hi hj hij => List.pairwise_iff_getElem.mp hs i j hi hj hij
  have hne : ∀ i j (hi : i < (g.edges.insertionSort edgeLe).length) (hj : j < (g.edges.insertionSort edgeLe).length),
      i ≠ j → (g.edges.insertionSort edgeLe)[i] ≠ (g.edges.insertionSort edgeLe)[j] :=
    fun i j hi hj hij h' => hij ((List.Nodup.getElem_inj_iff hn).mp h')
  constructor
  · intro hlt
    have a1 := key k k' b1 b2 hlt
    have a2 := hne k k' b1 b2 (by omega)
    rw [c1, c2] at a1 a2
    unfold edgeLe at a1
    have : ¬ (e.1 = e'.1 ∧ e.2 = e'.2) := fun h' => a2 (Prod.ext h'.1 h'.2)
    omega
  · intro hlt
    by_contra hge
    rcases Nat.eq_or_lt_of_le (Nat.le_of_not_lt hge) with h' | h'
    · subst h'
      rw [c1] at c2; subst c2; omega
    · have a1 := key k' k b2 b1 h'
      rw [c1, c2] at a1
      unfold edgeLe at a1
      omega

end

/-! ## The hypotheses are met -/

section

open Adj

instance : EmptyCollection Unit := ⟨()⟩

/-- The adjacency of the docstring of `adjacency2graph` (lines 119-122); vertex 2 is a dead end. -/
def docAdj : AdjArg Unit := .lists [(0, [1]), (1, [2, 3]), (3, [0])]

/-- Its `edge_type`. -/
def docTypes : TypeArg := .dicts [(0, [(1, 1)]), (1, [(2, 2), (3, 4)]), (3, [(0, 1)])]

example : ArgOk docAdj ∧ TypeOk docTypes ∧ Dead docAdj 2 ∧ ¬ Dead docAdj 1 := by
  refine ⟨by simp [ArgOk, docAdj], by simp [TypeOk, docTypes], ⟨Or.inr ⟨1, ⟨none, ∅⟩, ?_⟩, ?_⟩, ?_⟩
  · simp [docAdj, IsEdge]
  · simp [docAdj, IsEdge]
  · rintro ⟨_, h⟩
    exact h 2 ⟨none, ∅⟩ (by simp [docAdj, IsEdge])

example : ∃ g, adjacency2graph docAdj docTypes false = .ok g ∧ g.look 2 2 = some ⟨some 0, ()⟩ ∧
    g.look 1 2 = some ⟨some 2, ()⟩ := ⟨_, rfl, by decide +kernel, by decide +kernel⟩

example : ∃ g, adjacency2graph docAdj docTypes true = .ok g ∧ g.look 2 2 = none ∧
    g.look 1 2 = some ⟨some 0, ()⟩ ∧ g ≠ [] := ⟨_, rfl, by decide +kernel, by decide +kernel, by decide +kernel⟩

/-- A typed edge that is not there is an error. -/
example : adjacency2graph (A := Unit) docAdj (.dicts [(2, [(0, 1)])]) true = .error .keyError := by decide +kernel

/-- A type matrix cannot give type 0: a zero means "no type given" and the edge gets type 1. -/
theorem C58_matrix_type_zero : ∃ g, adjacency2graph (A := Unit) (.matrix 2 fun _ _ => true)
    (.matrix 2 fun u v => if u = 0 ∧ v = 1 then 0 else 2) false = .ok g ∧ g.look 0 1 = some ⟨some 1, ()⟩ :=
  ⟨_, rfl, by decide +kernel⟩

/-- A graph built by the constructor and `add_edge`, with the new edge numbered last although it is the
smallest. -/
example : Built ((QGraph.ofAdj (A := Unit) [(1, [(0, ⟨none, ()⟩)]), (0, [])]).addEdge 0 1) ∧
    Dict.get? ((QGraph.ofAdj (A := Unit) [(1, [(0, ⟨none, ()⟩)]), (0, [])]).addEdge 0 1).index (0, 1) = some 1 :=
  ⟨.add 0 1 (.new ⟨by decide, by decide⟩), by decide +kernel⟩

end

end Verif
