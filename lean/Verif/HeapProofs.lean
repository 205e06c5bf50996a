import Verif.Heap
import Mathlib.Data.List.Perm.Basic
import Mathlib.Data.Nat.Init
import Mathlib.Order.Nat
import Mathlib.Order.Basic
import Mathlib.Tactic.Common

/-! # Heap proofs: in-bounds, permutation, heap order, minimum -/

namespace Verif

variable {α T : Type*} [LinearOrder T]

/-- `p` lies in the subtree rooted at `s`. -/
inductive Desc (s : Nat) : Nat → Prop
  | refl : Desc s s
  | step {p : Nat} : 0 < p → Desc s ((p - 1) / 2) → Desc s p

theorem Desc.le {s p : Nat} (h : Desc s p) : s ≤ p := by
  induction h with
  | refl => exact le_rfl
  | step hp _ ih => omega

theorem Desc.parent {s p : Nat} (h : Desc s p) (hlt : s < p) : Desc s ((p - 1) / 2) := by
  cases h with
  | refl => omega
  | step _ h => exact h

theorem desc_zero (p : Nat) : Desc 0 p := by
  induction p using Nat.strong_induction_on with
  | _ p ih =>
    rcases Nat.eq_zero_or_pos p with h | h
    · subst h; exact .refl
    · exact .step h (ih _ (by omega))

theorem setChk_of_lt {l : List α} {i : Nat} {x : α} (h : i < l.length) :
    setChk l i x = some (l.set i x) := by simp [setChk, h]

/-- Swapping two cells is a permutation. -/
theorem set_set_perm {l : List α} {i j : Nat} {x y : α} (hi : l[i]? = some x) (hj : l[j]? = some y) :
    ((l.set i y).set j x).Perm l := by
  have hil : i < l.length := by
    by_contra h; rw [List.getElem?_eq_none (by omega)] at hi; simp at hi
  have hjl : j < l.length := by
    by_contra h; rw [List.getElem?_eq_none (by omega)] at hj; simp at hj
  rw [List.getElem?_eq_getElem hil] at hi
  rw [List.getElem?_eq_getElem hjl] at hj
  simp only [Option.some.injEq] at hi hj
  subst hi; subst hj
  exact List.set_set_perm hil hjl

/-- `siftdownLoop`: the virtual list is `l.set pos newitem`. -/
theorem siftdownLoop_spec (key : α → T) (n : Nat) (newitem : α) (s : Nat) :
    ∀ (fuel pos : Nat) (l : List α), pos < fuel → pos < l.length → Desc s pos → pos < n → n ≤ l.length →
      (∀ i, 0 < i → i < n → i ≠ pos → s ≤ (i - 1) / 2 →
        ∀ x y, (l.set pos newitem)[(i - 1) / 2]? = some x → (l.set pos newitem)[i]? = some y →
          key x ≤ key y) →
      (s < pos → ∀ c, 0 < c → c < n → (c - 1) / 2 = pos →
        ∀ x y, (l.set pos newitem)[(pos - 1) / 2]? = some x → (l.set pos newitem)[c]? = some y →
          key x ≤ key y) →
      ∃ l', siftdownLoop key newitem s fuel l pos = some l' ∧ l'.Perm (l.set pos newitem) ∧
        HeapFrom key n s l' ∧ (∀ j, n ≤ j → l'[j]? = l[j]?) := by
  intro fuel
  induction fuel with
  | zero => intro pos l h; omega
  | succ fuel ih =>
  intro pos l hfuel hlen hdesc hpn hnl hord hgp
  have hle := hdesc.le
  have fin : (∀ x, s < pos → l[(pos - 1) / 2]? = some x → key x ≤ key newitem) →
      HeapFrom key n s (l.set pos newitem) := by
    intro hx i hi hin hs x y h1 h2
    by_cases hip : i = pos
    · subst hip
      have hsi : s < i := by
        rcases Nat.lt_or_ge s i with h | h
        · exact h
        · exfalso; omega
      rw [List.getElem?_set_ne (by omega)] at h1
      rw [List.getElem?_set_self hlen] at h2
      simp only [Option.some.injEq] at h2
      subst h2
      exact hx x hsi h1
    · exact hord i hi hin hip hs x y h1 h2
  have hout : ∀ j, n ≤ j → (l.set pos newitem)[j]? = l[j]? := by
    intro j hj; rw [List.getElem?_set_ne (by omega)]
  unfold siftdownLoop
  by_cases hsp : s < pos
  · rw [if_pos hsp]
    have hpp : (pos - 1) / 2 < l.length := by omega
    rw [List.getElem?_eq_getElem hpp]
    set parent := l[(pos - 1) / 2] with hparent
    have hpar? : l[(pos - 1) / 2]? = some parent := by rw [List.getElem?_eq_getElem hpp]
    simp only
    by_cases hk : key newitem < key parent
    · rw [if_pos hk, setChk_of_lt hlen]
      simp only
      have hne : (pos - 1) / 2 ≠ pos := by omega
      -- the next virtual list
      have hv : ∀ j, ((l.set pos parent).set ((pos - 1) / 2) newitem)[j]? =
          if j = (pos - 1) / 2 then some newitem else if j = pos then some parent else l[j]? := by
        intro j
        by_cases h1 : j = (pos - 1) / 2
        · subst h1; rw [List.getElem?_set_self (by simpa using hpp)]; simp
        · rw [List.getElem?_set_ne (Ne.symm h1), if_neg h1]
          by_cases h2 : j = pos
          · subst h2; rw [List.getElem?_set_self hlen]; simp
          · rw [List.getElem?_set_ne (Ne.symm h2), if_neg h2]
      have hv0 : ∀ j, (l.set pos newitem)[j]? = if j = pos then some newitem else l[j]? := by
        intro j
        by_cases h2 : j = pos
        · subst h2; rw [List.getElem?_set_self hlen]; simp
        · rw [List.getElem?_set_ne (Ne.symm h2), if_neg h2]
      obtain ⟨l', h1, h2, h3, h4⟩ := ih ((pos - 1) / 2) (l.set pos parent) (by omega)
        (by simpa using hpp) (hdesc.parent hsp) (by omega) (by simpa using hnl)
        (by
          intro i hi hin hip hs x y hx hy
          rw [hv] at hx hy
          rw [if_neg hip] at hy
          by_cases h1 : i = pos
          · subst h1
            simp only [if_true, Option.some.injEq] at hx hy
            subst hx; subst hy; exact hk.le
          · rw [if_neg h1] at hy
            by_cases h2 : (i - 1) / 2 = (pos - 1) / 2
            · rw [if_pos h2] at hx
              simp only [Option.some.injEq] at hx; subst hx
              refine le_trans hk.le (hord i hi hin h1 hs parent y ?_ ?_)
              · rw [hv0, if_neg (by omega), h2, hpar?]
              · rw [hv0, if_neg h1, hy]
            · rw [if_neg h2] at hx
              by_cases h3 : (i - 1) / 2 = pos
              · rw [if_pos h3] at hx
                simp only [Option.some.injEq] at hx; subst hx
                refine hgp hsp i hi hin h3 parent y ?_ ?_
                · rw [hv0, if_neg (by omega), hpar?]
                · rw [hv0, if_neg h1, hy]
              · rw [if_neg h3] at hx
                refine hord i hi hin h1 hs x y ?_ ?_
                · rw [hv0, if_neg h3, hx]
                · rw [hv0, if_neg h1, hy])
        (by
          intro hsp2 c hc hcn hcp x y hx hy
          have hgpar : (pos - 1) / 2 ≠ pos := hne
          rw [hv] at hx hy
          have e1 : ((pos - 1) / 2 - 1) / 2 ≠ (pos - 1) / 2 := by omega
          have e2 : ((pos - 1) / 2 - 1) / 2 ≠ pos := by omega
          rw [if_neg e1, if_neg e2] at hx
          have hxp : key x ≤ key parent := by
            have hd := (hdesc.parent hsp).parent hsp2
            refine hord ((pos - 1) / 2) (by omega) (by omega) hne hd.le x parent ?_ ?_
            · rw [hv0, if_neg e2, hx]
            · rw [hv0, if_neg hne, hpar?]
          have e3 : c ≠ (pos - 1) / 2 := by omega
          rw [if_neg e3] at hy
          by_cases h2 : c = pos
          · rw [if_pos h2] at hy
            simp only [Option.some.injEq] at hy; subst hy; exact hxp
          · rw [if_neg h2] at hy
            refine le_trans hxp ?_
            have hd := (hdesc.parent hsp)
            refine hord c hc hcn h2 (by rw [hcp]; exact hd.le) parent y ?_ ?_
            · rw [hv0, if_neg (by omega), hcp, hpar?]
            · rw [hv0, if_neg h2, hy])
      refine ⟨l', h1, h2.trans ?_, h3, ?_⟩
      · have := set_set_perm (l := l.set pos newitem) (i := pos) (j := (pos - 1) / 2)
          (x := newitem) (y := parent) (by rw [hv0, if_pos rfl]) (by rw [hv0, if_neg hne, hpar?])
        rwa [List.set_set] at this
      · intro j hj
        rw [h4 j hj, List.getElem?_set_ne (by omega)]
    · rw [if_neg hk, setChk_of_lt hlen]
      refine ⟨_, rfl, List.Perm.refl _, fin ?_, hout⟩
      intro x _ hx
      rw [hpar?] at hx
      simp only [Option.some.injEq] at hx; subst hx
      exact not_lt.mp hk
  · rw [if_neg hsp, setChk_of_lt hlen]
    exact ⟨_, rfl, List.Perm.refl _, fin (fun _ h => absurd h hsp), hout⟩

theorem siftdown_spec (key : α → T) (n : Nat) (s pos : Nat) (l : List α) (hlen : pos < l.length)
    (hd : Desc s pos) (hpn : pos < n) (hnl : n ≤ l.length)
    (hord : ∀ i, 0 < i → i < n → i ≠ pos → s ≤ (i - 1) / 2 →
        ∀ x y, l[(i - 1) / 2]? = some x → l[i]? = some y → key x ≤ key y)
    (hgp : s < pos → ∀ c, 0 < c → c < n → (c - 1) / 2 = pos →
        ∀ x y, l[(pos - 1) / 2]? = some x → l[c]? = some y → key x ≤ key y) :
    ∃ l', siftdown key l s pos = some l' ∧ l'.Perm l ∧ HeapFrom key n s l' ∧
      (∀ j, n ≤ j → l'[j]? = l[j]?) := by
  unfold siftdown
  rw [List.getElem?_eq_getElem hlen]
  have hset : l.set pos l[pos] = l := List.set_getElem_self hlen
  obtain ⟨l', h1, h2, h3, h4⟩ := siftdownLoop_spec key n l[pos] s (pos + 1) pos l (by omega) hlen hd hpn hnl
    (by rw [hset]; exact hord) (by rw [hset]; exact hgp)
  rw [hset] at h2
  exact ⟨l', h1, h2, h3, h4⟩

/-- What the choice of the smaller child guarantees. -/
theorem smallerChild_spec (key : α → T) (l : List α) (p e : Nat) (h : 2 * p + 1 < e)
    (he : e ≤ l.length) :
    ∃ c, smallerChild key l (2 * p + 1) e = some c ∧ 0 < c ∧ c < e ∧ (c - 1) / 2 = p ∧ p < c ∧
      ∀ d, 0 < d → d < e → (d - 1) / 2 = p → ∀ x y, l[c]? = some x → l[d]? = some y →
        key x ≤ key y := by
  unfold smallerChild
  by_cases h1 : 2 * p + 1 + 1 < e
  · rw [if_pos h1, List.getElem?_eq_getElem (by omega : 2 * p + 1 < l.length),
      List.getElem?_eq_getElem (by omega : 2 * p + 1 + 1 < l.length)]
    simp only
    by_cases hk : key l[2 * p + 1] < key l[2 * p + 1 + 1]
    · refine ⟨2 * p + 1, by rw [if_pos hk], by omega, by omega, by omega, by omega, ?_⟩
      intro d hd hde hdp x y hx hy
      have : d = 2 * p + 1 ∨ d = 2 * p + 1 + 1 := by omega
      rw [List.getElem?_eq_getElem (by omega)] at hx
      simp only [Option.some.injEq] at hx; subst hx
      rcases this with h' | h' <;> subst h' <;> rw [List.getElem?_eq_getElem (by omega)] at hy <;>
        simp only [Option.some.injEq] at hy <;> subst hy
      · exact le_rfl
      · exact hk.le
    · refine ⟨2 * p + 1 + 1, by rw [if_neg hk], by omega, by omega, by omega, by omega, ?_⟩
      intro d hd hde hdp x y hx hy
      have : d = 2 * p + 1 ∨ d = 2 * p + 1 + 1 := by omega
      rw [List.getElem?_eq_getElem (by omega)] at hx
      simp only [Option.some.injEq] at hx; subst hx
      rcases this with h' | h' <;> subst h' <;> rw [List.getElem?_eq_getElem (by omega)] at hy <;>
        simp only [Option.some.injEq] at hy <;> subst hy
      · exact not_lt.mp hk
      · exact le_rfl
  · rw [if_neg h1]
    refine ⟨2 * p + 1, rfl, by omega, by omega, by omega, by omega, ?_⟩
    intro d hd hde hdp x y hx hy
    have : d = 2 * p + 1 := by omega
    subst this
    rw [hx] at hy
    simp only [Option.some.injEq] at hy; subst hy
    exact le_rfl

theorem smallerChild_congr {key : α → T} {l m : List α} {c e : Nat}
    (h : ∀ j, c ≤ j → l[j]? = m[j]?) : smallerChild key l c e = smallerChild key m c e := by
  unfold smallerChild
  rw [h c le_rfl, h (c + 1) (by omega)]

/-- `siftupLoop`: virtual list `l.set pos newitem`. -/
theorem siftupLoop_spec (key : α → T) (n : Nat) (newitem : α) (s : Nat) :
    ∀ (fuel pos : Nat) (l : List α), n - pos < fuel → pos < n → n ≤ l.length → Desc s pos →
      (∀ i, 0 < i → i < n → i ≠ pos → (i - 1) / 2 ≠ pos → s ≤ (i - 1) / 2 →
        ∀ x y, l[(i - 1) / 2]? = some x → l[i]? = some y → key x ≤ key y) →
      (s < pos → ∀ c, 0 < c → c < n → (c - 1) / 2 = pos →
        ∀ x y, l[(pos - 1) / 2]? = some x → l[c]? = some y → key x ≤ key y) →
      ∃ l', siftupLoop key newitem s n fuel l pos = some l' ∧ l'.Perm (l.set pos newitem) ∧
        HeapFrom key n s l' ∧ (∀ j, n ≤ j → l'[j]? = l[j]?) := by
  intro fuel
  induction fuel with
  | zero => intro pos l h; omega
  | succ fuel ih =>
  intro pos l hk hpn hnl hdesc hord hgp
  have hle := hdesc.le
  unfold siftupLoop
  by_cases hlt : 2 * pos + 1 < n
  · rw [if_pos hlt]
    obtain ⟨c, hc, hc0, hcn, hcp, hpc, hmin⟩ := smallerChild_spec key l pos n hlt hnl
    have hcl : c < l.length := by omega
    have hcell : l[c]? = some l[c] := List.getElem?_eq_getElem hcl
    · simp only [hc, hcell]
      rw [setChk_of_lt (by omega)]
      simp only
      have hv : ∀ j, (l.set pos l[c])[j]? = if j = pos then some l[c] else l[j]? := by
        intro j
        by_cases h2 : j = pos
        · subst h2; rw [List.getElem?_set_self (by omega)]; simp
        · rw [List.getElem?_set_ne (Ne.symm h2), if_neg h2]
      obtain ⟨l', h1, h2, h3, h4⟩ := ih c (l.set pos l[c]) (by omega) hcn
        (by simpa using hnl) (.step hc0 (by rw [hcp]; exact hdesc))
        (by
          intro i hi hin hic hpic hs x y hx hy
          rw [hv] at hx hy
          by_cases h1 : i = pos
          · subst h1
            rw [if_pos rfl] at hy; rw [if_neg (by omega)] at hx
            simp only [Option.some.injEq] at hy; subst hy
            have hsp : s < i := by
              rcases Nat.lt_or_ge s i with h | h
              · exact h
              · omega
            exact hgp hsp c hc0 hcn hcp x _ hx hcell
          · rw [if_neg h1] at hy
            by_cases h2 : (i - 1) / 2 = pos
            · rw [if_pos h2] at hx
              simp only [Option.some.injEq] at hx; subst hx
              exact hmin i hi hin h2 _ y hcell hy
            · rw [if_neg h2] at hx
              exact hord i hi hin h1 h2 hs x y hx hy)
        (by
          intro _ d hd hdn hdc x y hx hy
          rw [hv] at hx hy
          rw [if_pos hcp] at hx
          simp only [Option.some.injEq] at hx; subst hx
          rw [if_neg (by omega)] at hy
          refine hord d hd hdn (by omega) (by omega) (by omega) _ y ?_ hy
          rw [hdc]; exact hcell)
      refine ⟨l', h1, h2.trans ?_, h3, ?_⟩
      · have := set_set_perm (l := l.set pos newitem) (i := pos) (j := c)
          (x := newitem) (y := l[c]) (by rw [List.getElem?_set_self (by omega)])
          (by rw [List.getElem?_set_ne (by omega), hcell])
        rwa [List.set_set] at this
      · intro j hj
        rw [h4 j hj, List.getElem?_set_ne (by omega)]
  · rw [if_neg hlt, setChk_of_lt (by omega)]
    simp only
    have hv : ∀ j, j ≠ pos → (l.set pos newitem)[j]? = l[j]? := by
      intro j h2
      rw [List.getElem?_set_ne (Ne.symm h2)]
    obtain ⟨l', h1, h2, h3, h4⟩ := siftdown_spec key n s pos (l.set pos newitem) (by simp; omega)
      hdesc hpn (by simpa using hnl)
      (by
        intro i hi hin hip hs x y hx hy
        have hpp : (i - 1) / 2 ≠ pos := by omega
        rw [hv _ hpp] at hx; rw [hv _ hip] at hy
        exact hord i hi hin hip hpp hs x y hx hy)
      (by intro _ c hc hcn hcp; omega)
    refine ⟨l', h1, h2, h3, ?_⟩
    intro j hj
    rw [h4 j hj, hv j (by omega)]

theorem siftup_spec (key : α → T) (n pos : Nat) (l : List α) (hpn : pos < n) (hnl : n ≤ l.length)
    (hord : HeapFrom key n (pos + 1) l) :
    ∃ l', siftup key l pos n = some l' ∧ l'.Perm l ∧ HeapFrom key n pos l' ∧
      (∀ j, n ≤ j → l'[j]? = l[j]?) := by
  unfold siftup
  have hlen : pos < l.length := by omega
  rw [List.getElem?_eq_getElem hlen]
  obtain ⟨l', h1, h2, h3, h4⟩ := siftupLoop_spec key n l[pos] pos (n + 1) pos l (by omega) hpn hnl .refl
    (by
      intro i hi hin hip hpp hs x y hx hy
      exact hord i hi hin (by omega) x y hx hy)
    (by intro h; omega)
  rw [List.set_getElem_self hlen] at h2
  exact ⟨l', h1, h2, h3, h4⟩

theorem heapifyLoop_spec (key : α → T) (n : Nat) : ∀ (m : Nat) (l : List α), m ≤ n → n ≤ l.length →
    HeapFrom key n m l →
    ∃ l', heapifyLoop key n m l = some l' ∧ l'.Perm l ∧ HeapFrom key n 0 l' ∧
      (∀ j, n ≤ j → l'[j]? = l[j]?) := by
  intro m
  induction m with
  | zero => intro l _ _ h; exact ⟨l, rfl, .refl _, h, fun _ _ => rfl⟩
  | succ m ih =>
    intro l hmn hnl h
    obtain ⟨l1, a1, a2, a3, a4⟩ := siftup_spec key n m l (by omega) hnl h
    obtain ⟨l2, b1, b2, b3, b4⟩ := ih l1 (by omega) (by rw [a2.length_eq]; exact hnl) a3
    refine ⟨l2, ?_, b2.trans a2, b3, fun j hj => (b4 j hj).trans (a4 j hj)⟩
    unfold heapifyLoop
    rw [a1]
    exact b1

theorem heapify_spec (key : α → T) (n : Nat) (l : List α) (hnl : n ≤ l.length) :
    ∃ l', heapify key l n = some l' ∧ l'.Perm l ∧ HeapFrom key n 0 l' ∧
      (∀ j, n ≤ j → l'[j]? = l[j]?) := by
  refine heapifyLoop_spec key n (n / 2) l (by omega) hnl ?_
  intro i hi hin hs
  omega

/-- The root of a heap is minimal. -/
theorem HeapFrom.root_le {key : α → T} {n : Nat} {l : List α} (h : HeapFrom key n 0 l) :
    ∀ i, i < n → n ≤ l.length → ∀ x y, l[0]? = some x → l[i]? = some y → key x ≤ key y := by
  intro i
  induction i using Nat.strong_induction_on with
  | _ i ih =>
    intro hin hnl x y hx hy
    rcases Nat.eq_zero_or_pos i with h0 | h0
    · subst h0; rw [hx] at hy; simp only [Option.some.injEq] at hy; subst hy; exact le_rfl
    · have hp : (i - 1) / 2 < l.length := by omega
      have e := List.getElem?_eq_getElem hp
      exact (ih ((i - 1) / 2) (by omega) (by omega) hnl x _ hx e).trans
        (h i h0 hin (Nat.zero_le _) _ y e hy)

theorem IsHeap.head_le {key : α → T} {a : α} {l : List α} (h : IsHeap key (a :: l)) :
    ∀ b ∈ a :: l, key a ≤ key b := by
  intro b hb
  obtain ⟨i, hi, rfl⟩ := List.mem_iff_getElem.mp hb
  exact HeapFrom.root_le h i hi le_rfl a _ rfl (List.getElem?_eq_getElem hi)

theorem isHeap_nil (key : α → T) : IsHeap key [] := by
  intro i _ hi; simp at hi

theorem isHeap_singleton (key : α → T) (a : α) : IsHeap key [a] := by
  intro i h hi; simp at hi; omega

/-- `heappush` never fails, adds exactly the new element and keeps the heap order. -/
theorem heappush_spec (key : α → T) (l : List α) (x : α) (h : IsHeap key l) :
    ∃ l', heappush key l x = some l' ∧ l'.Perm (x :: l) ∧ IsHeap key l' := by
  obtain ⟨l', h1, h2, h3, -⟩ := siftdown_spec key (l.length + 1) 0 l.length (l ++ [x]) (by simp)
    (desc_zero _) (by omega) (by simp)
    (by
      intro i hi hin hil _ a b ha hb
      rw [List.getElem?_append_left (by omega)] at ha hb
      exact h i hi (by omega) (Nat.zero_le _) a b ha hb)
    (by intro _ c hc hcn hcp; omega)
  refine ⟨l', h1, h2.trans (List.perm_append_singleton x l), ?_⟩
  unfold IsHeap
  rw [h2.length_eq]
  simpa using h3

/-- `heappop` on a non-empty heap never fails, returns the root, removes exactly it, and keeps the
heap order. -/
theorem heappop_spec (key : α → T) (a : α) (l : List α) (h : IsHeap key (a :: l)) :
    ∃ l', heappop key (a :: l) = some (a, l') ∧ l'.Perm l ∧ IsHeap key l' := by
  unfold heappop
  rcases List.eq_nil_or_concat l with rfl | ⟨r, b, rfl⟩
  · exact ⟨[], rfl, .refl _, isHeap_nil key⟩
  · have e1 : (a :: r.concat b).getLast? = some b := by
      simp [List.getLast?_cons]
    have e2 : (a :: r.concat b).dropLast = a :: r := by
      rw [List.concat_eq_append, ← List.cons_append, List.dropLast_concat]
    rw [e1, e2]
    simp only [List.set_cons_zero]
    obtain ⟨l', h1, h2, h3, -⟩ := siftup_spec key (a :: r).length 0 (b :: r) (by simp) (by simp)
      (by
        intro i hi hin hs x y hx hy
        have hp : 0 < (i - 1) / 2 := by omega
        rw [List.getElem?_cons, if_neg (by omega)] at hx hy
        refine h i hi ?_ (Nat.zero_le _) x y ?_ ?_
        · simp at hin ⊢; omega
        · rw [List.getElem?_cons, if_neg (by omega), List.concat_eq_append,
            List.getElem?_append_left (by simp at hin; omega), hx]
        · rw [List.getElem?_cons, if_neg (by omega), List.concat_eq_append,
            List.getElem?_append_left (by simp at hin; omega), hy])
    rw [h1]
    refine ⟨l', rfl, ?_, ?_⟩
    · rw [List.concat_eq_append]
      exact h2.trans (List.perm_append_singleton b r).symm
    · unfold IsHeap
      rw [h2.length_eq]
      simpa using h3

end Verif
