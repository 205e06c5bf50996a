import Verif.Routing
import Mathlib.Algebra.Order.Group.Defs
import Mathlib.MeasureTheory.Measure.Lebesgue.Basic
import Mathlib.Algebra.Order.BigOperators.Group.List

/-! # Properties C31-C33: choosing a destination -/

set_option linter.unusedSectionVars false

namespace Verif.RoutingSpec

section Lawless

variable {R : Type*} [LinearOrder R] [Add R]

/-- `pr[0] + ... + pr[k]`, added from the left, for `pr = p :: ps`. -/
def cum (p : R) (ps : List R) (k : Nat) : R := (ps.take k).foldl (· + ·) p

theorem cum_succ {p : R} {ps : List R} {k : Nat} {x : R} (h : ps[k]? = some x) :
    cum p ps (k + 1) = cum p ps k + x := by
  unfold cum
  rw [List.take_add_one, h, List.foldl_append]
  rfl

theorem choiceLoop_spec (p : R) (ps : List R) (u : R) (m k : Nat) (last : Option Nat)
    (hk : k + m = ps.length) (hlast : m = 0 → last = some k) (hlt : ∀ j ≤ k, cum p ps j < u) :
    ∃ r, choiceLoop (p :: ps) u m (k + 1) (cum p ps k) last = .ok r ∧ r ≤ ps.length ∧
      (∀ j < r, cum p ps j < u) ∧ (u ≤ cum p ps r ∨ r = ps.length) := by
  induction m generalizing k last with
  | zero =>
    rw [hlast rfl]
    exact ⟨k, rfl, by omega, fun j hj => hlt j hj.le, .inr (by omega)⟩
  | succ m ih =>
    have hk' : k < ps.length := by omega
    have hget : ps[k]? = some ps[k] := List.getElem?_eq_getElem hk'
    simp only [choiceLoop, List.getElem?_cons_succ, hget]
    rw [← cum_succ hget]
    by_cases h : u ≤ cum p ps (k + 1)
    · rw [if_pos h]
      exact ⟨k + 1, rfl, hk', fun j hj => hlt j (by omega), .inl h⟩
    · rw [if_neg h]
      refine ih (k + 1) (some (k + 1)) (by omega) (fun _ => rfl) fun j hj => ?_
      rcases Nat.lt_or_ge j (k + 1) with h1 | h1
      · exact hlt j (by omega)
      · have : j = k + 1 := by omega
        rw [this]; exact not_le.mp h

/-- C31: for at least two out-edges `_choice` returns the least index `k` with `u <= pr[0] + ... + pr[k]`,
or the last index if there is none; always a valid index, no memory error. No law of arithmetic is used. -/
theorem C31_least_index (p : R) (ps : List R) (u : R) (hps : ps ≠ []) :
    ∃ k, choice (p :: ps) u (p :: ps).length = .ok k ∧ k < (p :: ps).length ∧
      (∀ j < k, cum p ps j < u) ∧ (u ≤ cum p ps k ∨ k + 1 = (p :: ps).length) := by
  simp only [choice, List.getElem?_cons_zero, List.length_cons, Nat.add_sub_cancel]
  by_cases h : u ≤ p
  · rw [if_pos h]
    exact ⟨0, rfl, by omega, by simp, .inl h⟩
  · rw [if_neg h]
    obtain ⟨r, h1, h2, h3, h4⟩ := choiceLoop_spec p ps u ps.length 0 none (by omega)
      (fun h0 => absurd (List.length_eq_zero_iff.mp h0) hps)
      (fun j hj => by
        have : j = 0 := by omega
        subst this; exact not_le.mp h)
    refine ⟨r, h1, by omega, h3, ?_⟩
    rcases h4 with h4 | h4
    · exact .inl h4
    · exact .inr (by omega)

/-- The index returned is determined by C31. -/
theorem choice_unique {p : R} {ps : List R} {u : R} {k k' : Nat}
    (h1 : k < (p :: ps).length) (h2 : ∀ j < k, cum p ps j < u)
    (h3 : u ≤ cum p ps k ∨ k + 1 = (p :: ps).length)
    (h1' : k' < (p :: ps).length) (h2' : ∀ j < k', cum p ps j < u)
    (h3' : u ≤ cum p ps k' ∨ k' + 1 = (p :: ps).length) : k = k' := by
  rcases Nat.lt_trichotomy k k' with h | h | h
  · rcases h3 with h3 | h3
    · exact absurd (h2' k h) (not_lt.mpr h3)
    · omega
  · exact h
  · rcases h3' with h3' | h3'
    · exact absurd (h2 k' h) (not_lt.mpr h3')
    · omega

theorem choice_iff (p : R) (ps : List R) (u : R) (hps : ps ≠ []) (k : Nat) :
    choice (p :: ps) u (p :: ps).length = .ok k ↔ k < (p :: ps).length ∧ (∀ j < k, cum p ps j < u) ∧
      (u ≤ cum p ps k ∨ k + 1 = (p :: ps).length) := by
  obtain ⟨k', h1, h2, h3, h4⟩ := C31_least_index p ps u hps
  rw [h1]
  simp only [Except.ok.injEq]
  constructor
  · rintro rfl; exact ⟨h2, h3, h4⟩
  · rintro ⟨g1, g2, g3⟩; exact choice_unique h2 h3 h4 g1 g2 g3

/-- With a single out-edge (which the callers exclude) `_choice` may return an uninitialised variable. -/
theorem C31_single_edge_uninitialised (p u : R) (h : p < u) :
    choice [p] u 1 = .error .uninitialised := by
  simp [choice, choiceLoop, not_le.mpr h]

end Lawless

section Exact

variable {R : Type*} [LinearOrder R] [AddCommGroup R] [IsOrderedAddMonoid R]

theorem foldl_add_sum (l : List R) (p : R) : l.foldl (· + ·) p = p + l.sum := by
  induction l generalizing p with
  | nil => simp
  | cons x l ih => rw [List.foldl_cons, ih, List.sum_cons, add_assoc]

theorem cum_eq_sum (p : R) (ps : List R) (k : Nat) : cum p ps k = ((p :: ps).take (k + 1)).sum := by
  unfold cum
  rw [foldl_add_sum, List.take_succ_cons, List.sum_cons]

theorem cum_step (p : R) (ps : List R) (k : Nat) (hk : k < ps.length) :
    cum p ps (k + 1) = cum p ps k + ps[k] :=
  cum_succ (List.getElem?_eq_getElem hk)

theorem cum_mono (p : R) (ps : List R) (h0 : ∀ x ∈ ps, 0 ≤ x) {j k : Nat} (hjk : j ≤ k) :
    cum p ps j ≤ cum p ps k := by
  induction k, hjk using Nat.le_induction with
  | base => exact le_rfl
  | succ k _ ih =>
    refine ih.trans ?_
    rcases Nat.lt_or_ge k ps.length with h | h
    · rw [cum_step p ps k h]
      exact le_add_of_nonneg_right (h0 _ (List.getElem_mem h))
    · unfold cum
      rw [List.take_of_length_le h, List.take_of_length_le (by omega)]

/-- C31, exact arithmetic and non-negative probabilities: index `k` is chosen exactly for the `u` in the
half-open interval `(pr[0] + ... + pr[k-1], pr[0] + ... + pr[k]]`, the first interval being unbounded below
and the last unbounded above. -/
theorem C31_interval (p : R) (ps : List R) (u : R) (hps : ps ≠ []) (h0 : ∀ x ∈ p :: ps, 0 ≤ x) (k : Nat) :
    choice (p :: ps) u (p :: ps).length = .ok k ↔ k < (p :: ps).length ∧
      (k = 0 ∨ ((p :: ps).take k).sum < u) ∧
      (u ≤ ((p :: ps).take (k + 1)).sum ∨ k + 1 = (p :: ps).length) := by
  rw [choice_iff p ps u hps k, ← cum_eq_sum]
  refine and_congr_right fun hk => and_congr_left fun _ => ?_
  cases k with
  | zero => simp
  | succ k =>
    rw [← cum_eq_sum]
    constructor
    · intro h; exact .inr (h k (by omega))
    · rintro (h | h) j hj
      · omega
      · exact (cum_mono p ps (fun x hx => h0 x (List.mem_cons_of_mem _ hx)) (by omega)).trans_lt h

/-- C31: an out-edge of probability zero is never chosen for a draw `0 < u <= 1`. -/
theorem C31_zero_never_chosen (pr : List R) (one u : R) (hlen : 2 ≤ pr.length) (h0 : ∀ x ∈ pr, 0 ≤ x)
    (h1 : pr.sum = one) (hu0 : 0 < u) (hu1 : u ≤ one) (k : Nat) (hk : pr[k]? = some 0) :
    choice pr u pr.length ≠ .ok k := by
  obtain ⟨p, ps, rfl⟩ : ∃ p ps, pr = p :: ps := by
    cases pr with
    | nil => simp at hlen
    | cons p ps => exact ⟨p, ps, rfl⟩
  have hps : ps ≠ [] := by rintro rfl; simp at hlen
  intro h
  obtain ⟨a, b, c⟩ := (C31_interval p ps u hps h0 k).mp h
  have hsum : ((p :: ps).take (k + 1)).sum = ((p :: ps).take k).sum := by
    rw [List.take_add_one, hk]; simp
  have hle : u ≤ ((p :: ps).take (k + 1)).sum := by
    rcases c with c | c
    · exact c
    · rw [c, List.take_length, h1]; exact hu1
  rw [hsum] at hle
  rcases b with b | b
  · subst b; simp at hle; exact absurd hu0 (not_lt.mpr hle)
  · exact absurd b (not_lt.mpr hle)

end Exact

/-- Finding F10: with the draw `u = 0`, which `uniform()` can return, the first out-edge is chosen even if its
probability is zero. -/
theorem C31_zero_draw (ps : List ℤ) : choice (0 :: ps) 0 (0 :: ps).length = .ok 0 := by
  simp [choice]

open MeasureTheory in
/-- C31: for a uniform draw on `[0, 1)` the chance that `_choice` returns `k` is `pr[k]`. -/
theorem C31_distribution (pr : List ℝ) (hlen : 2 ≤ pr.length) (h0 : ∀ x ∈ pr, 0 ≤ x) (h1 : pr.sum = 1)
    (k : Nat) (hk : k < pr.length) :
    volume {u : ℝ | u ∈ Set.Ico 0 1 ∧ choice pr u pr.length = .ok k} = ENNReal.ofReal pr[k] := by
  obtain ⟨p, ps, rfl⟩ : ∃ p ps, pr = p :: ps := by
    cases pr with
    | nil => simp at hlen
    | cons p ps => exact ⟨p, ps, rfl⟩
  have hps : ps ≠ [] := by rintro rfl; simp at hlen
  obtain ⟨pr, hpr⟩ : ∃ pr, pr = p :: ps := ⟨_, rfl⟩
  have hstep : ((p :: ps).take (k + 1)).sum = ((p :: ps).take k).sum + (p :: ps)[k] := by
    rw [List.take_add_one, List.getElem?_eq_getElem hk]
    simp only [Option.toList_some, List.sum_append, List.sum_singleton]
  have hC := fun u => C31_interval p ps u hps h0 k
  rw [← hpr] at hC
  simp only [← hpr] at h0 h1 hk hstep ⊢
  have hnn : ∀ n, 0 ≤ (pr.take n).sum := fun n =>
    List.sum_nonneg fun x hx => h0 x (List.mem_of_mem_take hx)
  have hle1 : ∀ n, (pr.take n).sum ≤ 1 := fun n => by
    have := List.sum_take_add_sum_drop pr n
    have h2 : 0 ≤ (pr.drop n).sum := List.sum_nonneg fun x hx => h0 x (List.mem_of_mem_drop hx)
    rw [h1] at this
    linarith
  have hsub : Set.Ioo (pr.take k).sum (pr.take (k + 1)).sum ⊆
      {u : ℝ | u ∈ Set.Ico 0 1 ∧ choice pr u pr.length = .ok k} := by
    rintro u ⟨hu1, hu2⟩
    exact ⟨⟨(hnn k).trans hu1.le, hu2.trans_le (hle1 _)⟩,
      (hC u).mpr ⟨hk, .inr hu1, .inl hu2.le⟩⟩
  have hsup : {u : ℝ | u ∈ Set.Ico 0 1 ∧ choice pr u pr.length = .ok k} ⊆
      Set.Icc (pr.take k).sum (pr.take (k + 1)).sum := by
    rintro u ⟨⟨hu0, hu1⟩, hc⟩
    obtain ⟨_, b, c⟩ := (hC u).mp hc
    constructor
    · rcases b with b | b
      · subst b; simpa using hu0
      · exact b.le
    · rcases c with c | c
      · exact c
      · rw [show k + 1 = pr.length from c, List.take_length, h1]; exact hu1.le
  apply le_antisymm
  · refine (measure_mono hsup).trans ?_
    rw [Real.volume_Icc, hstep, add_sub_cancel_left]
  · refine le_trans ?_ (measure_mono hsub)
    rw [Real.volume_Ioo, hstep, add_sub_cancel_left]

/-- The hypotheses of C31 hold for the probabilities 1/2, 0, 1/2; the middle edge has chance zero. -/
example : (2 ≤ ([1/2, 0, 1/2] : List ℝ).length) ∧ (∀ x ∈ ([1/2, 0, 1/2] : List ℝ), 0 ≤ x) ∧
    ([1/2, 0, 1/2] : List ℝ).sum = 1 := by
  refine ⟨by simp, ?_, by norm_num⟩
  intro x hx
  simp at hx
  rcases hx with h | h | h <;> subst h <;> norm_num

example : choice ([1, 0, 1] : List ℤ) 2 3 = .ok 2 ∧ choice ([1, 0, 1] : List ℤ) 1 3 = .ok 0 := by
  decide +kernel

/-! ## C32, C33: the destination of an agent -/

section Dest

variable {R : Type*} [LinearOrder R] [Add R]

/-- C32: with at least one out-edge and one probability per out-edge, an agent's destination is one of the
out-edges of the vertex, and no error occurs. -/
theorem C32_destination_is_out_edge (out : List Nat) (pr : List R) (u : R) (hout : out ≠ [])
    (hlen : pr.length = out.length) : ∃ e ∈ out, agentDest out pr u = .ok e := by
  cases out with
  | nil => exact absurd rfl hout
  | cons e es =>
    cases es with
    | nil => exact ⟨e, by simp, by simp [agentDest]⟩
    | cons e' es =>
      cases pr with
      | nil => simp at hlen
      | cons p ps =>
        have hps : ps ≠ [] := by rintro rfl; simp at hlen
        obtain ⟨k, h1, h2, -, -⟩ := C31_least_index p ps u hps
        have hk : k < (e :: e' :: es).length := by rw [← hlen]; exact h2
        refine ⟨(e :: e' :: es)[k], List.getElem_mem hk, ?_⟩
        rw [hlen] at h1
        simp only [agentDest]
        rw [if_neg (by simp), h1]
        simp only [List.getElem?_eq_getElem hk]

/-- C32: with a single out-edge the destination is that edge. -/
theorem C32_single_out_edge (e : Nat) (pr : List R) (u : R) : agentDest [e] pr u = .ok e := by
  simp [agentDest]

example : ∃ e ∈ [4, 7, 9], agentDest [4, 7, 9] ([1, 0, 1] : List ℤ) 2 = .ok e :=
  C32_destination_is_out_edge _ _ _ (by simp) rfl

example : agentDest [4, 7, 9] ([1, 0, 1] : List ℤ) 2 = .ok 9 := by decide +kernel

end Dest

/-- The result of the loop is the index of the first smallest element of the part seen, if smaller than the
start value. -/
theorem argminLoop_spec (a : List Nat) (k minv : Nat) (amin : Int) :
    (argminLoop a k minv amin = amin ∧ ∀ x ∈ a, minv ≤ x) ∨
    (∃ i : Nat, ∃ hi : i < a.length, argminLoop a k minv amin = ((k + i : Nat) : Int) ∧ a[i] < minv ∧
      (∀ x ∈ a, a[i] ≤ x) ∧ ∀ j, ∀ hj : j < a.length, j < i → a[i] < a[j]) := by
  induction a generalizing k minv amin with
  | nil => left; simp [argminLoop]
  | cons v a ih =>
    simp only [argminLoop]
    by_cases h : v < minv
    · rw [if_pos h]
      right
      rcases ih (k + 1) v k with ⟨h1, h2⟩ | ⟨i, hi, h1, h2, h3, h4⟩
      · refine ⟨0, by simp, by simpa using h1, by simpa using h, ?_, by simp⟩
        intro x hx
        rcases List.mem_cons.mp hx with rfl | hx
        · simp
        · simpa using h2 x hx
      · refine ⟨i + 1, by simpa using hi, by rw [h1]; push_cast; ring, ?_, ?_, ?_⟩
        · simp only [List.getElem_cons_succ]; omega
        · intro x hx
          simp only [List.getElem_cons_succ]
          rcases List.mem_cons.mp hx with rfl | hx
          · exact h2.le
          · exact h3 x hx
        · intro j hj hji
          cases j with
          | zero => simpa using h2
          | succ j => simpa using h4 j (by simpa using hj) (by omega)
    · rw [if_neg h]
      rcases ih (k + 1) minv amin with ⟨h1, h2⟩ | ⟨i, hi, h1, h2, h3, h4⟩
      · left
        refine ⟨h1, fun x hx => ?_⟩
        rcases List.mem_cons.mp hx with rfl | hx
        · omega
        · exact h2 x hx
      · right
        refine ⟨i + 1, by simpa using hi, by rw [h1]; push_cast; ring, by simpa using h2, ?_, ?_⟩
        · intro x hx
          simp only [List.getElem_cons_succ]
          rcases List.mem_cons.mp hx with rfl | hx
          · omega
          · exact h3 x hx
        · intro j hj hji
          cases j with
          | zero => simp only [List.getElem_cons_succ, List.getElem_cons_zero]; omega
          | succ j => simpa using h4 j (by simpa using hj) (by omega)

/-- `_argmin` of a non-empty list is the first index of its minimum. -/
theorem argmin_spec (a : List Nat) (ha : a ≠ []) :
    ∃ i : Nat, ∃ hi : i < a.length, argmin a = some (i : Int) ∧ (∀ x ∈ a, a[i] ≤ x) ∧
      ∀ j, ∀ hj : j < a.length, j < i → a[i] < a[j] := by
  cases a with
  | nil => exact absurd rfl ha
  | cons v a =>
    rcases argminLoop_spec a 0 v (-1) with ⟨h1, h2⟩ | ⟨i, hi, h1, h2, h3, h4⟩
    · refine ⟨0, by simp, by simp [argmin, h1], ?_, by simp⟩
      intro x hx
      rcases List.mem_cons.mp hx with rfl | hx
      · simp
      · simpa using h2 x hx
    · refine ⟨i + 1, by simpa using hi, by simp [argmin, h1], ?_, ?_⟩
      · intro x hx
        simp only [List.getElem_cons_succ]
        rcases List.mem_cons.mp hx with rfl | hx
        · exact h2.le
        · exact h3 x hx
      · intro j hj hji
        cases j with
        | zero => simpa using h2
        | succ j => simpa using h4 j (by simpa using hj) (by omega)

/-- C33: a GreedyAgent goes to the first out-edge with the smallest number of waiting agents: out-edges
before it have strictly more, all others at least as many. No error occurs. -/
theorem C33_first_shortest_line (out : List Nat) (queued : Nat → Nat) (hout : out ≠ []) :
    ∃ before e after, out = before ++ e :: after ∧ greedyDest out queued = .ok e ∧
      (∀ d ∈ before, queued e < queued d) ∧ ∀ d ∈ after, queued e ≤ queued d := by
  obtain ⟨i, hi, h1, h2, h3⟩ := argmin_spec (out.map queued) (by simpa using hout)
  have hi' : i < out.length := by simpa using hi
  simp only [List.getElem_map] at h2 h3
  refine ⟨out.take i, out[i], out.drop (i + 1), ?_, ?_, ?_, ?_⟩
  · rw [← List.drop_eq_getElem_cons hi', List.take_append_drop]
  · simp only [greedyDest, h1, Int.toNat_natCast, List.getElem?_eq_getElem hi']
  · intro d hd
    obtain ⟨j, hj, rfl⟩ := List.mem_iff_getElem.mp hd
    simp only [List.length_take] at hj
    rw [List.getElem_take]
    exact h3 j (by simp; omega) (by omega)
  · intro d hd
    exact h2 _ (List.mem_map.mpr ⟨d, List.mem_of_mem_drop hd, rfl⟩)

/-- C32: a GreedyAgent's destination is one of the out-edges. -/
theorem C32_greedy_destination_is_out_edge (out : List Nat) (queued : Nat → Nat) (hout : out ≠ []) :
    ∃ e ∈ out, greedyDest out queued = .ok e := by
  obtain ⟨b, e, a, h, h', -⟩ := C33_first_shortest_line out queued hout
  exact ⟨e, by rw [h]; simp, h'⟩

example : greedyDest [5, 2, 8, 3] (fun d => if d = 2 ∨ d = 8 then 1 else 4) = .ok 2 := by decide +kernel

end Verif.RoutingSpec
