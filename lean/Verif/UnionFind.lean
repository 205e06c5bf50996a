import Mathlib.Data.List.Dedup
import Mathlib.Data.List.Basic
import Mathlib.Logic.Relation
import Mathlib.Logic.Function.Basic
import Mathlib.Order.Basic

/-! # Model of `queueing_tool/union_find.py` -/

namespace Verif

/-- The attributes of a `UnionFind`, union_find.py lines 20-24. The three dicts have the same keys `dom`;
their values are given by functions that only matter on `dom`. -/
structure UF (α : Type*) where
  dom : List α
  leader : α → α
  size : α → Nat
  rank : α → Nat
  nClusters : Int

section

variable {α : Type*} [DecidableEq α]

/-- `UnionFind(S)`, union_find.py lines 20-24. -/
def UF.new (S : List α) : UF α where
  dom := S.dedup
  leader := id
  size _ := 1
  rank _ := 0
  nClusters := S.dedup.length

/-- The loop of `find`, union_find.py lines 66-68, with at most `fuel` tests of its condition: the list
`pSet` and the last `parent`. -/
def UF.climb (leader : α → α) : Nat → List α → α → Option (List α × α)
  | 0, _, _ => none
  | fuel + 1, pSet, parent =>
    if parent ≠ leader parent then UF.climb leader fuel (pSet ++ [parent]) (leader parent)
    else some (pSet, parent)

/-- `for a in pSet: self._leader[a] = parent`, union_find.py lines 71-72. -/
def UF.compress (leader : α → α) (parent : α) : List α → α → α
  | [] => leader
  | a :: l => UF.compress (Function.update leader a parent) parent l

/-- `find(s)`, union_find.py lines 63-74. `none`: KeyError, or the loop does more than `|dom| + 1` tests
(which C62 excludes). -/
def UF.find (u : UF α) (s : α) : Option (UF α × α) :=
  if s ∈ u.dom then
    match UF.climb u.leader (u.dom.length + 1) [s] (u.leader s) with
    | none => none
    | some (pSet, parent) =>
      some (if 1 < pSet.length then { u with leader := UF.compress u.leader parent pSet } else u, parent)
  else none

/-- `size(s)`, union_find.py lines 46-47. -/
def UF.sizeOf (u : UF α) (s : α) : Option (UF α × Nat) :=
  match u.find s with
  | none => none
  | some (u, l) => some (u, u.size l)

/-- The body of `if s1 != s2:`, union_find.py lines 87-96, after the swap. -/
def UF.link (u : UF α) (s1 s2 : α) (tie : Bool) : UF α :=
  { u with
    rank := if tie then Function.update u.rank s1 (u.rank s1 + 1) else u.rank
    leader := Function.update u.leader s2 s1
    size := Function.update u.size s1 (u.size s1 + u.size s2)
    nClusters := u.nClusters - 1 }

/-- `union(a, b)`, union_find.py lines 85-96. -/
def UF.union (u : UF α) (a b : α) : Option (UF α) :=
  match u.find a with
  | none => none
  | some (u, s1) =>
    match u.find b with
    | none => none
    | some (u, s2) =>
      if s1 ≠ s2 then
        if u.rank s1 < u.rank s2 then some (u.link s2 s1 false)
        else some (u.link s1 s2 (decide (u.rank s1 = u.rank s2)))
      else some u

/-! ## Invariant -/

/-- `ρ x` is the leader of the set of `x`. -/
structure UFInv (u : UF α) (ρ : α → α) : Prop where
  nodup : u.dom.Nodup
  mem : ∀ x ∈ u.dom, u.leader x ∈ u.dom
  rmem : ∀ x ∈ u.dom, ρ x ∈ u.dom
  fix : ∀ x ∈ u.dom, u.leader x = x → ρ x = x
  comp : ∀ x ∈ u.dom, ρ (u.leader x) = ρ x
  root : ∀ x ∈ u.dom, u.leader (ρ x) = ρ x
  up : ∀ x ∈ u.dom, u.leader x ≠ x → u.rank x < u.rank (u.leader x)
  size : ∀ x ∈ u.dom, u.leader x = x → u.size x = (u.dom.filter fun y => decide (ρ y = x)).length
  n : u.nClusters = (u.dom.filter fun x => decide (u.leader x = x)).length

/-- Elements of larger rank. -/
def UF.above (u : UF α) (x : α) : Nat := (u.dom.filter fun y => decide (u.rank x < u.rank y)).length

omit [DecidableEq α] in
theorem filter_length_le {l : List α} {p q : α → Bool} (h : ∀ x ∈ l, p x = true → q x = true) :
    (l.filter p).length ≤ (l.filter q).length := by
  rw [← List.countP_eq_length_filter, ← List.countP_eq_length_filter]
  exact List.countP_mono_left h

omit [DecidableEq α] in
theorem filter_length_lt {l : List α} {p q : α → Bool} (h : ∀ x ∈ l, p x = true → q x = true) {y : α}
    (hy : y ∈ l) (hp : p y = false) (hq : q y = true) : (l.filter p).length < (l.filter q).length := by
  induction l with
  | nil => simp at hy
  | cons a l ih =>
    have hle : (l.filter p).length ≤ (l.filter q).length :=
      filter_length_le fun x hx => h x (by simp [hx])
    rcases List.mem_cons.mp hy with rfl | hy
    · simp only [List.filter_cons, hp, hq, Bool.false_eq_true, if_false, if_true, List.length_cons]; omega
    · have := ih (fun x hx => h x (by simp [hx])) hy
      have ha := h a (by simp)
      simp only [List.filter_cons]
      cases hpa : p a with
      | true => simp only [ha hpa, if_true, List.length_cons]; omega
      | false => simp only [Bool.false_eq_true, if_false]; split <;> simp <;> omega

omit [DecidableEq α] in
theorem UF.above_lt {u : UF α} {x y : α} (hy : y ∈ u.dom) (h : u.rank x < u.rank y) :
    u.above y < u.above x := by
  refine filter_length_lt (y := y) (fun z _ hz => ?_) hy ?_ ?_
  · simp only [decide_eq_true_eq] at hz ⊢; omega
  · simp
  · simpa using h

/-- The loop of `find` ends at the leader of the set, and `pSet` stays within the set. -/
theorem UFInv.climb {u : UF α} {ρ : α → α} (h : UFInv u ρ) (fuel : Nat) : ∀ (pSet : List α) (x : α),
    x ∈ u.dom → u.above x < fuel →
    ∃ l, UF.climb u.leader fuel pSet x = some (pSet ++ l, ρ x) ∧
      (∀ y ∈ l, y ∈ u.dom ∧ ρ y = ρ x ∧ y ≠ ρ x ∧ u.rank y < u.rank (ρ x)) ∧ u.rank x ≤ u.rank (ρ x) := by
  induction fuel with
  | zero => intro pSet x _ hf; omega
  | succ f ih =>
    intro pSet x hx hf
    unfold UF.climb
    by_cases hl : x ≠ u.leader x
    · rw [if_pos hl]
      have hup := h.up x hx (Ne.symm hl)
      have := UF.above_lt (h.mem x hx) hup
      obtain ⟨l, h1, h2, h3⟩ := ih (pSet ++ [x]) (u.leader x) (h.mem x hx) (by omega)
      rw [h.comp x hx] at h1 h2 h3
      refine ⟨x :: l, by simpa using h1, ?_, by omega⟩
      intro y hy
      rcases List.mem_cons.mp hy with rfl | hy
      · refine ⟨hx, rfl, ?_, by omega⟩
        intro he
        rw [← he] at h3; omega
      · exact h2 y hy
    · rw [if_neg hl]
      have := h.fix x hx (by simpa using Eq.symm (not_not.mp hl))
      exact ⟨[], by simp [this], by simp, by rw [this]; exact Nat.le_refl _⟩

theorem compress_eq (leader : α → α) (r : α) (l : List α) (x : α) :
    UF.compress leader r l x = if x ∈ l then r else leader x := by
  induction l generalizing leader with
  | nil => simp [UF.compress]
  | cons a l ih =>
    rw [UF.compress, ih]
    by_cases hx : x ∈ l
    · simp [hx]
    · by_cases hxa : x = a
      · subst hxa; simp [hx]
      · simp [hx, hxa]

/-- Path compression keeps the invariant. -/
theorem UFInv.compress {u : UF α} {ρ : α → α} (h : UFInv u ρ) {r : α} {l : List α}
    (hl : ∀ y ∈ l, y ∈ u.dom ∧ ρ y = r ∧ (y = r ∨ u.rank y < u.rank r)) (hr : ρ r = r) (hrm : r ∈ u.dom) :
    UFInv { u with leader := UF.compress u.leader r l } ρ := by
  have hroot : u.leader r = r := by have := h.root r hrm; rwa [hr] at this
  have hfix : ∀ x ∈ u.dom, UF.compress u.leader r l x = x → ρ x = x := by
    intro x hx
    rw [compress_eq]
    split
    · rename_i hm; intro he; rw [(hl x hm).2.1, he]
    · exact h.fix x hx
  have hiff : ∀ x ∈ u.dom, (UF.compress u.leader r l x = x ↔ u.leader x = x) := by
    intro x hx
    refine ⟨fun hc => ?_, fun hc => ?_⟩
    · have := h.root x hx; rwa [hfix x hx hc] at this
    · rw [compress_eq]
      split
      · rename_i hm
        rw [← (hl x hm).2.1]; exact h.fix x hx hc
      · exact hc
  refine ⟨h.nodup, fun x hx => ?_, h.rmem, hfix, fun x hx => ?_, fun x hx => ?_, fun x hx hne => ?_,
    fun x hx he => h.size x hx ((hiff x hx).mp he), ?_⟩
  · show UF.compress u.leader r l x ∈ u.dom
    rw [compress_eq]; split
    · exact hrm
    · exact h.mem x hx
  · show ρ (UF.compress u.leader r l x) = ρ x
    rw [compress_eq]; split
    · rename_i hm; rw [hr, (hl x hm).2.1]
    · exact h.comp x hx
  · exact (hiff _ (h.rmem x hx)).mpr (h.root x hx)
  · show u.rank x < u.rank (UF.compress u.leader r l x)
    have hne : UF.compress u.leader r l x ≠ x := hne
    rw [compress_eq] at hne ⊢
    split at hne
    · rename_i hm
      rw [if_pos hm]
      rcases (hl x hm).2.2 with h1 | h1
      · exact absurd h1.symm hne
      · exact h1
    · rename_i hm; rw [if_neg hm]; exact h.up x hx hne
  · rw [h.n]
    congr 2
    apply List.filter_congr
    intro x hx
    simp only [decide_eq_decide]
    exact (hiff x hx).symm

/-- `find` returns the leader of the set and keeps all sets. -/
theorem UFInv.find {u : UF α} {ρ : α → α} (h : UFInv u ρ) {s : α} (hs : s ∈ u.dom) :
    ∃ u', u.find s = some (u', ρ s) ∧ UFInv u' ρ ∧ u'.dom = u.dom ∧ u'.size = u.size ∧ u'.rank = u.rank ∧
      u'.nClusters = u.nClusters := by
  have hab : u.above (u.leader s) < u.dom.length + 1 := by
    have : u.above (u.leader s) ≤ u.dom.length := List.length_filter_le _ _
    omega
  obtain ⟨l, h1, h2, h3⟩ := h.climb (u.dom.length + 1) [s] (u.leader s) (h.mem s hs) hab
  rw [h.comp s hs] at h1 h2 h3
  unfold UF.find
  rw [if_pos hs, h1]
  have hrr : ρ (ρ s) = ρ s := h.fix _ (h.rmem s hs) (h.root s hs)
  refine ⟨_, rfl, ?_, ?_⟩
  · split
    · refine h.compress (fun y hy => ?_) hrr (h.rmem s hs)
      rcases List.mem_append.mp hy with hy | hy
      · obtain rfl : y = s := by simpa using hy
        refine ⟨hs, rfl, ?_⟩
        by_cases hl : u.leader y = y
        · left; exact (h.fix y hs hl).symm
        · right; have := h.up y hs hl; omega
      · obtain ⟨p1, p2, p3, p4⟩ := h2 y hy
        exact ⟨p1, p2, .inr p4⟩
    · exact h
  · split <;> exact ⟨rfl, rfl, rfl, rfl⟩

theorem UFInv.new (S : List α) : UFInv (UF.new S) id := by
  refine ⟨S.nodup_dedup, fun x hx => hx, fun x hx => hx, fun _ _ _ => rfl, fun _ _ => rfl, fun _ _ => rfl,
    fun x _ h => absurd rfl h, fun x hx _ => ?_, by simp [UF.new]⟩
  have hx : x ∈ S.dedup := hx
  show 1 = ((S.dedup).filter fun y => decide (id y = x)).length
  have := List.count_eq_one_of_mem S.nodup_dedup hx
  rw [← this, List.count_eq_length_filter]
  rfl

/-- Merging two sets. -/
theorem UFInv.link {u : UF α} {ρ : α → α} (h : UFInv u ρ) {s1 s2 : α} (h1 : s1 ∈ u.dom) (h2 : s2 ∈ u.dom)
    (r1 : u.leader s1 = s1) (r2 : u.leader s2 = s2) (hne : s1 ≠ s2) {tie : Bool}
    (hr : (tie = true ∧ u.rank s1 = u.rank s2) ∨ u.rank s2 < u.rank s1) :
    UFInv (u.link s1 s2 tie) (fun x => if ρ x = s2 then s1 else ρ x) := by
  have q1 := h.fix s1 h1 r1
  have q2 := h.fix s2 h2 r2
  have hrank : ∀ x, u.rank x ≤ (u.link s1 s2 tie).rank x := by
    intro x
    unfold UF.link
    cases tie with
    | false => simp
    | true =>
      by_cases hx : x = s1
      · subst hx; simp
      · simp [Function.update_of_ne hx]
  have hrank' : ∀ x, x ≠ s1 → (u.link s1 s2 tie).rank x = u.rank x := by
    intro x hx
    unfold UF.link
    cases tie with
    | false => simp
    | true => simp [Function.update_of_ne hx]
  have hlead : ∀ x, (u.link s1 s2 tie).leader x = if x = s2 then s1 else u.leader x := by
    intro x
    by_cases hx : x = s2
    · subst hx; simp [UF.link]
    · simp [UF.link, hx]
  have hroots : ∀ x ∈ u.dom, u.leader x = x → ρ x = x := h.fix
  refine ⟨h.nodup, fun x hx => ?_, fun x hx => ?_, fun x hx he => ?_, fun x hx => ?_, fun x hx => ?_,
    fun x hx he => ?_, fun x hx he => ?_, ?_⟩
  · rw [hlead]; split
    · exact h1
    · exact h.mem x hx
  · show (if ρ x = s2 then s1 else ρ x) ∈ u.dom
    split
    · exact h1
    · exact h.rmem x hx
  · rw [hlead] at he
    split at he
    · rename_i hx2; rw [hx2] at he; exact absurd he hne
    · rename_i hx2
      have := h.fix x hx he
      show (if ρ x = s2 then s1 else ρ x) = x
      rw [this, if_neg hx2]
  · show (if ρ ((u.link s1 s2 tie).leader x) = s2 then s1 else ρ ((u.link s1 s2 tie).leader x)) = _
    rw [hlead]
    by_cases hx2 : x = s2
    · subst hx2
      rw [if_pos rfl, q1, if_neg hne, if_pos q2]
    · rw [if_neg hx2, h.comp x hx]
  · show (u.link s1 s2 tie).leader (if ρ x = s2 then s1 else ρ x) = _
    rw [hlead]
    by_cases hx2 : ρ x = s2
    · rw [if_pos hx2, if_neg hne, r1]
    · rw [if_neg hx2, if_neg hx2, h.root x hx]
  · rw [hlead] at he ⊢
    by_cases hx2 : x = s2
    · subst hx2
      rw [if_pos rfl, hrank' x (Ne.symm hne)]
      rcases hr with ⟨ht, hr⟩ | hr
      · subst ht
        simp [UF.link, hr]
      · exact Nat.lt_of_lt_of_le hr (hrank s1)
    · rw [if_neg hx2] at he ⊢
      have hx1 : x ≠ s1 := by rintro rfl; exact he r1
      rw [hrank' x hx1]
      exact Nat.lt_of_lt_of_le (h.up x hx he) (hrank _)
  · rw [hlead] at he
    have hx2 : x ≠ s2 := by
      rintro rfl
      rw [if_pos rfl] at he; exact hne he
    rw [if_neg hx2] at he
    show Function.update u.size s1 (u.size s1 + u.size s2) x = (u.dom.filter _).length
    by_cases hx1 : x = s1
    · subst hx1
      rw [Function.update_self, h.size x h1 r1, h.size s2 h2 r2]
      have : ∀ l : List α, (l.filter fun y => decide (ρ y = x)).length +
          (l.filter fun y => decide (ρ y = s2)).length =
          (l.filter fun y => decide ((if ρ y = s2 then x else ρ y) = x)).length := by
        intro l
        induction l with
        | nil => simp
        | cons a l ih =>
          simp only [List.filter_cons]
          by_cases ha : ρ a = s2
          · simp [ha, Ne.symm hne]; simp [eq_comm] at ih ⊢; omega
          · by_cases hb : ρ a = x
            · simp [hb, hne]; simp at ih ⊢; omega
            · simp [ha, hb]; simpa using ih
      exact this u.dom
    · rw [Function.update_of_ne hx1, h.size x hx he]
      congr 1
      apply List.filter_congr
      intro y hy
      simp only [decide_eq_decide]
      by_cases hy2 : ρ y = s2
      · rw [if_pos hy2, hy2]; exact ⟨fun e => absurd e.symm hx2, fun e => absurd e.symm hx1⟩
      · rw [if_neg hy2]
  · show u.nClusters - 1 = _
    rw [h.n]
    have : ∀ l : List α, l.Nodup → (l.filter fun x => decide (u.leader x = x)).length =
        (l.filter fun x => decide ((u.link s1 s2 tie).leader x = x)).length + (if s2 ∈ l then 1 else 0) := by
      intro l
      induction l with
      | nil => simp
      | cons a l ih =>
        intro hl
        have ih := ih hl.of_cons
        simp only [List.filter_cons, hlead] at ih ⊢
        by_cases ha : a = s2
        · subst ha
          have : a ∉ l := (List.nodup_cons.mp hl).1
          simp [r2, hne, this] at ih ⊢
          omega
        · by_cases hb : u.leader a = a
          · simp [ha, hb, Ne.symm ha] at ih ⊢; omega
          · simp [ha, hb, Ne.symm ha] at ih ⊢; omega
    have := this u.dom h.nodup
    rw [if_pos h2] at this
    show _ = (((u.dom.filter fun x => decide ((u.link s1 s2 tie).leader x = x)).length : Nat) : Int)
    omega

theorem merge_iff (s1 s2 p q : α) : (if p = s2 then s1 else p) = (if q = s2 then s1 else q) ↔
    p = q ∨ (p = s1 ∧ q = s2) ∨ (p = s2 ∧ q = s1) := by
  by_cases hp : p = s2 <;> by_cases hq : q = s2 <;> simp only [hp, hq, if_true, if_false] <;> grind

/-- `union` merges the two sets. -/
theorem UFInv.union {u : UF α} {ρ : α → α} (h : UFInv u ρ) {a b : α} (ha : a ∈ u.dom) (hb : b ∈ u.dom) :
    ∃ u' ρ', u.union a b = some u' ∧ UFInv u' ρ' ∧ u'.dom = u.dom ∧
      (∀ x y, ρ' x = ρ' y ↔ ρ x = ρ y ∨ (ρ x = ρ a ∧ ρ y = ρ b) ∨ (ρ x = ρ b ∧ ρ y = ρ a)) := by
  obtain ⟨u1, f1, i1, d1, -⟩ := h.find ha
  obtain ⟨u2, f2, i2, d2, -⟩ := i1.find (s := b) (by rw [d1]; exact hb)
  unfold UF.union
  rw [f1]; simp only [f2]
  have hd : u2.dom = u.dom := d2.trans d1
  have ma : ρ a ∈ u2.dom := i2.rmem a (by rw [hd]; exact ha)
  have mb : ρ b ∈ u2.dom := i2.rmem b (by rw [hd]; exact hb)
  have ra := i2.root a (by rw [hd]; exact ha)
  have rb := i2.root b (by rw [hd]; exact hb)
  by_cases hne : ρ a ≠ ρ b
  · rw [if_pos hne]
    by_cases hr : u2.rank (ρ a) < u2.rank (ρ b)
    · rw [if_pos hr]
      refine ⟨_, _, rfl, i2.link mb ma rb ra (Ne.symm hne) (.inr hr), hd, ?_⟩
      intro x y
      rw [merge_iff]; tauto
    · rw [if_neg hr]
      refine ⟨_, _, rfl, i2.link ma mb ra rb hne ?_, hd, ?_⟩
      · by_cases he : u2.rank (ρ a) = u2.rank (ρ b)
        · exact .inl ⟨by simp [he], he⟩
        · right; omega
      · intro x y
        rw [merge_iff]
  · rw [if_neg hne]
    have hne : ρ a = ρ b := not_not.mp hne
    refine ⟨u2, ρ, rfl, i2, hd, fun x y => ⟨.inl, ?_⟩⟩
    rintro (e | ⟨e1, e2⟩ | ⟨e1, e2⟩)
    · exact e
    · rw [e1, e2, hne]
    · rw [e1, e2, hne]

end

end Verif
