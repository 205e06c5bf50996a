import Verif.HeapProofs
import Mathlib.Order.BoundedOrder.Basic

/-!
# The scheduler's priority queue

Model of `/repo/queueing_tool/network/priority_queue.pyx`, class `PriorityQueue` (lines 6-125).

* SIMPLIFIED: the two parallel arrays `array_times`/`array_edges` (always written together) are one
  list `arr` of pairs; its length is the physical array length.
* SIMPLIFIED: C `int` overflow (more than 2^31 entries) and negative node numbers are not modelled.
* `next_time`, `next_node` (the last popped pair) are return values instead of attributes.
* `none` = an access outside an array (bounds checks are compiled out) or, in `__init__`, the
  `IndexError` of line 40.
-/

namespace Verif

/-- priority_queue.pyx lines 9-15. -/
structure PQ (T : Type*) where
  arr : List (T × Nat)
  size : Nat
  actualSize : Nat
  qtimes : List T
deriving DecidableEq

namespace PQ

variable {T : Type*} [LinearOrder T]

/-- The loop `for key in keys: self.q_times[key[1]] = key[0]`, priority_queue.pyx lines 39-40. -/
def initTimes : List (T × Nat) → List T → Option (List T)
  | [], q => some q
  | (t, k) :: ks, q =>
    match setChk q k t with
    | none => none
    | some q' => initTimes ks q'

/-- `PriorityQueue(keys, n)`, priority_queue.pyx lines 20-40. -/
def init [OrderTop T] (keys : List (T × Nat)) (n : Nat) : Option (PQ T) :=
  match heapify Prod.fst keys keys.length with
  | none => none
  | some arr =>
    match initTimes keys (List.replicate n ⊤) with
    | none => none
    | some q => some { arr := arr, size := keys.length, actualSize := keys.length, qtimes := q }

/-- `array.resize_smart(a, m)`, used in priority_queue.pyx lines 88-89: the old cells are kept, new
cells contain arbitrary garbage `g`. -/
def resize (arr : List (T × Nat)) (m : Nat) (g : Nat → T × Nat) : List (T × Nat) :=
  (List.range m).map fun i => (arr[i]?).getD (g i)

/-- `push(t, k)`, priority_queue.pyx lines 80-99. -/
def push (pq : PQ T) (g : Nat → T × Nat) (t : T) (k : Nat) : Option (PQ T) :=
  match setChk pq.qtimes k t with
  | none => none
  | some q =>
    let arr0 := if pq.size < pq.actualSize then pq.arr else resize pq.arr (2 * pq.size) g
    let act := if pq.size < pq.actualSize then pq.actualSize else 2 * pq.actualSize
    match setChk arr0 pq.size (t, k) with
    | none => none
    | some arr1 =>
      match siftdown Prod.fst arr1 0 pq.size with
      | none => none
      | some arr2 => some { arr := arr2, size := pq.size + 1, actualSize := act, qtimes := q }

/-- `heappop()`, priority_queue.pyx lines 104-125. With `size = 0` it reads index -1. -/
def heappop (pq : PQ T) : Option (PQ T × (T × Nat)) :=
  if pq.size = 0 then none
  else
    let s := pq.size - 1
    match pq.arr[s]? with
    | none => none
    | some last =>
      if 0 < s then
        match pq.arr[0]? with
        | none => none
        | some ret =>
          match setChk pq.arr 0 last with
          | none => none
          | some arr1 =>
            match siftup Prod.fst arr1 0 s with
            | none => none
            | some arr2 => some ({ pq with arr := arr2, size := s }, ret)
      else some ({ pq with size := s }, last)

/-- The `while` loop of `pop` (priority_queue.pyx lines 66-70), entered with the pair `r` just
popped. The flag `size == -1` of lines 67-69 and 72-74 is the result `none`. `fuel` bounds the
number of iterations (more than `size` at the start). -/
def popLoop : Nat → PQ T → T × Nat → Option (PQ T × Option (T × Nat))
  | 0, _, _ => none
  | fuel + 1, pq, r =>
    match pq.qtimes[r.2]? with
    | none => none
    | some q =>
      if r.1 ≠ q then
        if pq.size = 0 then some (pq, none)
        else
          match pq.heappop with
          | none => none
          | some (pq', r') => popLoop fuel pq' r'
      else some (pq, some r)

/-- `pop()`, priority_queue.pyx lines 60-75. -/
def pop (pq : PQ T) : Option (PQ T × Option (T × Nat)) :=
  match pq.heappop with
  | none => none
  | some (pq', r) => popLoop (pq'.size + 1) pq' r

/-- The pairs stored at the moment (properties `times`, `edges`, priority_queue.pyx lines 42-48). -/
def stored (pq : PQ T) : List (T × Nat) := pq.arr.take pq.size

/-- A stored pair is live when its time is the last one pushed for its node. -/
def Live (pq : PQ T) (p : T × Nat) : Prop := pq.qtimes[p.2]? = some p.1

/-- Representation invariant. -/
structure Inv (n : Nat) (pq : PQ T) : Prop where
  len : pq.arr.length = pq.actualSize
  size_le : pq.size ≤ pq.actualSize
  pos : 0 < pq.actualSize
  qlen : pq.qtimes.length = n
  nodes : ∀ p ∈ pq.stored, p.2 < n
  heap : HeapFrom Prod.fst pq.size 0 pq.arr

theorem take_perm_of_perm {α : Type*} {l l' : List α} {n : Nat} (hp : l'.Perm l)
    (ht : ∀ j, n ≤ j → l'[j]? = l[j]?) : (l'.take n).Perm (l.take n) := by
  have hd : l'.drop n = l.drop n := by
    apply List.ext_getElem?
    intro i
    rw [List.getElem?_drop, List.getElem?_drop]
    exact ht _ (by omega)
  have h : (l'.take n ++ l'.drop n).Perm (l.take n ++ l.drop n) := by simpa using hp
  rw [hd] at h
  exact (List.perm_append_right_iff _).mp h

omit [LinearOrder T] in
theorem initTimes_spec : ∀ (keys : List (T × Nat)) (q : List T), (∀ p ∈ keys, p.2 < q.length) →
    ∃ q', initTimes keys q = some q' ∧ q'.length = q.length := by
  intro keys
  induction keys with
  | nil => intro q _; exact ⟨q, rfl, rfl⟩
  | cons p ks ih =>
    intro q h
    obtain ⟨t, k⟩ := p
    have hk : k < q.length := h (t, k) (by simp)
    obtain ⟨q', h1, h2⟩ := ih (q.set k t) (by
      intro p hp; simpa using h p (by simp [hp]))
    refine ⟨q', ?_, by simpa using h2⟩
    simp only [initTimes, setChk_of_lt hk, h1]

theorem init_spec [OrderTop T] (keys : List (T × Nat)) (n : Nat) (hk : ∀ p ∈ keys, p.2 < n) :
    ∃ pq q, init keys n = some pq ∧ initTimes keys (List.replicate n ⊤) = some q ∧
      pq.qtimes = q ∧ pq.stored.Perm keys ∧ (keys ≠ [] → pq.Inv n) := by
  obtain ⟨l', h1, h2, h3, -⟩ := heapify_spec Prod.fst keys.length keys le_rfl
  obtain ⟨q, hq, hql⟩ := initTimes_spec keys (List.replicate n ⊤) (by simpa using hk)
  have hst : l'.take keys.length = l' := List.take_of_length_le (by rw [h2.length_eq])
  refine ⟨⟨l', keys.length, keys.length, q⟩, q, by simp only [init, h1, hq], hq, rfl, ?_, ?_⟩
  · simp only [stored, hst]; exact h2
  · intro hne
    constructor
    · simp [h2.length_eq]
    · simp
    · simpa [List.length_pos_iff] using hne
    · simpa using hql
    · intro p hp
      simp only [stored, hst] at hp
      exact hk p (h2.mem_iff.mp hp)
    · exact h3

omit [LinearOrder T] in
theorem resize_length (arr : List (T × Nat)) (m : Nat) (g) : (resize arr m g).length = m := by
  simp [resize]

omit [LinearOrder T] in
theorem resize_get (arr : List (T × Nat)) (m : Nat) (g) {i : Nat} (h : i < arr.length) (hm : i < m) :
    (resize arr m g)[i]? = arr[i]? := by
  simp [resize, List.getElem?_map, List.getElem?_range hm, List.getElem?_eq_getElem h]

theorem push_spec {n : Nat} {pq : PQ T} (h : pq.Inv n) (g : Nat → T × Nat) (t : T) {k : Nat}
    (hk : k < n) :
    ∃ pq', pq.push g t k = some pq' ∧ pq'.Inv n ∧ pq'.stored.Perm ((t, k) :: pq.stored) ∧
      pq'.qtimes = pq.qtimes.set k t ∧ pq'.size = pq.size + 1 := by
  unfold push
  rw [setChk_of_lt (by rw [h.qlen]; exact hk)]
  simp only
  set arr0 := if pq.size < pq.actualSize then pq.arr else resize pq.arr (2 * pq.size) g with harr0
  set act := if pq.size < pq.actualSize then pq.actualSize else 2 * pq.actualSize with hact
  have hsz := h.size_le
  have hl := h.len
  have hpos := h.pos
  have hlen0 : arr0.length = act := by
    rw [harr0, hact]; split
    · exact hl
    · rw [resize_length]; omega
  have hslt : pq.size < arr0.length := by
    rw [hlen0, hact]; split <;> omega
  have hget : ∀ i, i < pq.size → arr0[i]? = pq.arr[i]? := by
    intro i hi
    rw [harr0]; split
    · rfl
    · exact resize_get _ _ _ (by omega) (by omega)
  rw [setChk_of_lt hslt]
  simp only
  have hget1 : ∀ i, i < pq.size → (arr0.set pq.size (t, k))[i]? = pq.arr[i]? := by
    intro i hi
    rw [List.getElem?_set_ne (by omega), hget i hi]
  obtain ⟨l', h1, h2, h3, h4⟩ := siftdown_spec Prod.fst (pq.size + 1) 0 pq.size
    (arr0.set pq.size (t, k)) (by simpa using hslt) (desc_zero _) (by omega) (by simp; omega)
    (by
      intro i hi hin hip _ x y hx hy
      rw [hget1 _ (by omega)] at hx hy
      exact h.heap i hi (by omega) (Nat.zero_le _) x y hx hy)
    (by intro _ c _ _ _; omega)
  rw [h1]
  have hst : (l'.take (pq.size + 1)).Perm ((t, k) :: pq.stored) := by
    refine (take_perm_of_perm h2 h4).trans ?_
    have : (arr0.set pq.size (t, k)).take (pq.size + 1) = pq.stored ++ [(t, k)] := by
      apply List.ext_getElem?
      intro i
      rw [List.getElem?_take]
      have hslen : pq.stored.length = pq.size := by simp [stored]; omega
      by_cases hi : i < pq.size
      · rw [if_pos (by omega), hget1 i hi, List.getElem?_append_left (by omega), stored,
          List.getElem?_take, if_pos hi]
      · by_cases hi2 : i = pq.size
        · subst hi2
          rw [if_pos (by omega), List.getElem?_set_self hslt,
            List.getElem?_append_right (by omega)]
          simp [hslen]
        · rw [if_neg (by omega), List.getElem?_eq_none (by simp [hslen]; omega)]
    rw [this]
    exact List.perm_append_singleton _ _
  refine ⟨_, rfl, ?_, hst, rfl, rfl⟩
  constructor
  · show l'.length = act
    rw [h2.length_eq]; simpa using hlen0
  · show pq.size + 1 ≤ act
    omega
  · show 0 < act
    omega
  · simpa using h.qlen
  · intro p hp
    have := hst.mem_iff.mp hp
    rcases List.mem_cons.mp this with rfl | h'
    · exact hk
    · exact h.nodes p h'
  · exact h3

theorem heappop_spec {n : Nat} {pq : PQ T} (h : pq.Inv n) (hs : 0 < pq.size) :
    ∃ pq' r, pq.heappop = some (pq', r) ∧ pq'.Inv n ∧ pq.stored.Perm (r :: pq'.stored) ∧
      (∀ p ∈ pq.stored, r.1 ≤ p.1) ∧ pq'.qtimes = pq.qtimes ∧ pq'.size + 1 = pq.size := by
  have hl := h.len
  have hsz := h.size_le
  have hlast : pq.size - 1 < pq.arr.length := by omega
  have h0 : 0 < pq.arr.length := by omega
  have hmin : ∀ p ∈ pq.stored, pq.arr[0].1 ≤ p.1 := by
    intro p hp
    obtain ⟨i, hi, rfl⟩ := List.mem_iff_getElem.mp hp
    simp only [stored, List.length_take] at hi
    refine HeapFrom.root_le h.heap i (by omega) (by omega) _ _ (List.getElem?_eq_getElem h0) ?_
    simp [stored]
  have hst : pq.stored.length = pq.size := by simp [stored]; omega
  have hmem0 : pq.arr[0] ∈ pq.stored := by
    rw [List.mem_iff_getElem]
    exact ⟨0, by omega, by simp [stored]⟩
  unfold PQ.heappop
  rw [if_neg (by omega)]
  simp only [List.getElem?_eq_getElem hlast, List.getElem?_eq_getElem h0, setChk_of_lt h0]
  by_cases hs1 : 0 < pq.size - 1
  · rw [if_pos hs1]
    obtain ⟨l', h1, h2, h3, h4⟩ := siftup_spec Prod.fst (pq.size - 1) 0
      (pq.arr.set 0 pq.arr[pq.size - 1]) hs1 (by simp; omega)
      (by
        intro i hi hin hp x y hx hy
        rw [List.getElem?_set_ne (by omega)] at hx hy
        exact h.heap i hi (by omega) (Nat.zero_le _) x y hx hy)
    rw [h1]
    simp only
    have hperm : pq.stored.Perm (pq.arr[0] :: l'.take (pq.size - 1)) := by
      have e1 : (pq.arr.set 0 pq.arr[pq.size - 1]).take (pq.size - 1) =
          pq.arr[pq.size - 1] :: (pq.arr.drop 1).take (pq.size - 2) := by
        apply List.ext_getElem?
        intro i
        cases i with
        | zero => rw [List.getElem?_take, if_pos hs1, List.getElem?_set_self h0]; simp
        | succ i =>
          rw [List.getElem?_take, List.getElem?_set_ne (by omega), List.getElem?_cons_succ,
            List.getElem?_take, List.getElem?_drop, Nat.add_comm 1 i]
          by_cases hi : i + 1 < pq.size - 1
          · rw [if_pos hi, if_pos (by omega)]
          · rw [if_neg hi, if_neg (by omega)]
      have e2 : pq.stored =
          pq.arr[0] :: ((pq.arr.drop 1).take (pq.size - 2) ++ [pq.arr[pq.size - 1]]) := by
        apply List.ext_getElem?
        intro i
        have hlen : ((pq.arr.drop 1).take (pq.size - 2)).length = pq.size - 2 := by
          simp; omega
        cases i with
        | zero => rw [stored, List.getElem?_take, if_pos hs]; simp [h0]
        | succ i =>
          rw [stored, List.getElem?_take, List.getElem?_cons_succ]
          by_cases hi : i < pq.size - 2
          · rw [if_pos (by omega), List.getElem?_append_left (by omega), List.getElem?_take,
              if_pos hi, List.getElem?_drop, Nat.add_comm 1 i]
          · rw [List.getElem?_append_right (by omega)]
            by_cases hi2 : i = pq.size - 2
            · have e3 : i + 1 = pq.size - 1 := by omega
              rw [if_pos (by omega), hlen, e3, List.getElem?_eq_getElem hlast,
                show i - (pq.size - 2) = 0 by omega]; simp
            · rw [if_neg (by omega), List.getElem?_eq_none (by simp; omega)]
      rw [e2]
      refine List.Perm.cons _ ?_
      refine List.Perm.trans ?_ (take_perm_of_perm h2 h4).symm
      rw [e1]
      exact List.perm_append_singleton _ _
    refine ⟨_, _, rfl, ?_, hperm, hmin, rfl, by simp; omega⟩
    constructor
    · simp [h2.length_eq, hl]
    · simp; omega
    · exact h.pos
    · exact h.qlen
    · intro p hp
      exact h.nodes p (hperm.mem_iff.mpr (List.mem_cons_of_mem _ hp))
    · exact h3
  · rw [if_neg hs1]
    have hs2 : pq.size = 1 := by omega
    have e : pq.stored = [pq.arr[0]] := by
      simp only [stored, hs2]
      apply List.ext_getElem?
      intro i
      cases i with
      | zero => simp [h0]
      | succ i => simp; omega
    have e1 : pq.arr[pq.size - 1] = pq.arr[0] := by congr 1; omega
    refine ⟨_, _, rfl, ?_, ?_, ?_, rfl, by simp; omega⟩
    · constructor
      · exact hl
      · simp; omega
      · exact h.pos
      · exact h.qlen
      · intro p hp
        simp [stored, hs2] at hp
      · intro i hi hin
        simp at hin; omega
    · rw [e, e1]; simp [stored, hs2]
    · rw [e1]; exact hmin

/-- What `pop` does when it answers `res`. -/
def PopPost (pq pq' : PQ T) : Option (T × Nat) → Prop
  | none => pq'.stored = [] ∧ ∀ p ∈ pq.stored, ¬ pq.Live p
  | some r => pq.Live r ∧ ∃ stale, (∀ p ∈ stale, ¬ pq.Live p ∧ p.1 ≤ r.1) ∧
      pq.stored.Perm (stale ++ r :: pq'.stored) ∧ ∀ p ∈ pq'.stored, r.1 ≤ p.1

theorem popLoop_spec {n : Nat} : ∀ (fuel : Nat) (pq : PQ T) (r : T × Nat), pq.size < fuel → pq.Inv n →
    r.2 < n → (∀ p ∈ pq.stored, r.1 ≤ p.1) →
    ∃ pq' res, popLoop fuel pq r = some (pq', res) ∧ pq'.Inv n ∧ pq'.qtimes = pq.qtimes ∧
      match res with
      | none => pq'.stored = [] ∧ ¬ pq.Live r ∧ ∀ p ∈ pq.stored, ¬ pq.Live p
      | some r' => pq.Live r' ∧ ∃ stale, (∀ p ∈ stale, ¬ pq.Live p ∧ p.1 ≤ r'.1) ∧
          (r :: pq.stored).Perm (stale ++ r' :: pq'.stored) ∧ ∀ p ∈ pq'.stored, r'.1 ≤ p.1 := by
  intro fuel
  induction fuel with
  | zero => intro pq r hm; omega
  | succ fuel ih =>
    intro pq r hm h hr hmin
    have hq : r.2 < pq.qtimes.length := by rw [h.qlen]; exact hr
    unfold popLoop
    rw [List.getElem?_eq_getElem hq]
    simp only
    by_cases hne : r.1 ≠ pq.qtimes[r.2]
    · rw [if_pos hne]
      have hdead : ¬ pq.Live r := by
        intro hl; unfold Live at hl
        rw [List.getElem?_eq_getElem hq] at hl
        simp at hl; exact hne hl.symm
      by_cases hz : pq.size = 0
      · have hst : pq.stored = [] := by simp [stored, hz]
        rw [if_pos hz]
        exact ⟨_, _, rfl, h, rfl, hst, hdead, by simp [hst]⟩
      rw [if_neg hz]
      obtain ⟨pq1, r1, h1, hinv, hperm, hmin1, hqt, hsz⟩ := heappop_spec h (by omega)
      have hlive : ∀ p, pq1.Live p ↔ pq.Live p := by intro p; unfold Live; rw [hqt]
      obtain ⟨pq2, res, g1, g2, g3, g4⟩ := ih pq1 r1 (by omega) hinv
        (h.nodes r1 (hperm.mem_iff.mpr (by simp)))
        (fun p hp => hmin1 p (hperm.mem_iff.mpr (by simp [hp])))
      have hrr : r.1 ≤ r1.1 := hmin r1 (hperm.mem_iff.mpr (by simp))
      rw [h1]
      · refine ⟨pq2, res, g1, g2, g3.trans hqt, ?_⟩
        cases res with
        | none =>
          obtain ⟨a1, a2, a3⟩ := g4
          refine ⟨a1, hdead, ?_⟩
          intro p hp
          rcases List.mem_cons.mp (hperm.mem_iff.mp hp) with rfl | hp'
          · rwa [hlive] at a2
          · have := a3 p hp'; rwa [hlive] at this
        | some r' =>
          obtain ⟨a1, stale, a2, a3, a4⟩ := g4
          refine ⟨(hlive _).mp a1, r :: stale, ?_, ?_, a4⟩
          · intro p hp
            rcases List.mem_cons.mp hp with rfl | hp'
            · refine ⟨hdead, ?_⟩
              have hr' : r' ∈ r1 :: pq1.stored := a3.mem_iff.mpr (by simp)
              exact hmin r' (hperm.mem_iff.mpr hr')
            · exact ⟨fun hl => (a2 p hp').1 ((hlive p).mpr hl), (a2 p hp').2⟩
          · rw [List.cons_append]
            exact (hperm.trans a3).cons r
    · rw [if_neg hne]
      push Not at hne
      refine ⟨_, _, rfl, h, rfl, ?_, [], by simp, by simp, hmin⟩
      unfold Live; rw [List.getElem?_eq_getElem hq, hne]

theorem pop_spec {n : Nat} {pq : PQ T} (h : pq.Inv n) (hs : 0 < pq.size) :
    ∃ pq' res, pq.pop = some (pq', res) ∧ pq'.Inv n ∧ pq'.qtimes = pq.qtimes ∧
      PopPost pq pq' res := by
  obtain ⟨pq1, r1, h1, hinv, hperm, hmin1, hqt, hsz⟩ := heappop_spec h hs
  have hlive : ∀ p, pq1.Live p ↔ pq.Live p := by intro p; unfold Live; rw [hqt]
  obtain ⟨pq2, res, g1, g2, g3, g4⟩ := popLoop_spec (pq1.size + 1) pq1 r1 (by omega) hinv
    (h.nodes r1 (hperm.mem_iff.mpr (by simp)))
    (fun p hp => hmin1 p (hperm.mem_iff.mpr (by simp [hp])))
  refine ⟨pq2, res, by simp only [pop, h1, g1], g2, g3.trans hqt, ?_⟩
  cases res with
  | none =>
    obtain ⟨a1, a2, a3⟩ := g4
    refine ⟨a1, ?_⟩
    intro p hp
    rcases List.mem_cons.mp (hperm.mem_iff.mp hp) with rfl | hp'
    · rwa [hlive] at a2
    · have := a3 p hp'; rwa [hlive] at this
  | some r' =>
    obtain ⟨a1, stale, a2, a3, a4⟩ := g4
    exact ⟨(hlive _).mp a1, stale, fun p hp => ⟨fun hl => (a2 p hp).1 ((hlive p).mpr hl),
      (a2 p hp).2⟩, hperm.trans a3, a4⟩

end PQ

end Verif
