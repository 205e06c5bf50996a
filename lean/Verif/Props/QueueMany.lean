import Verif.Props.QueueThroughput

/-! # C145: a queue with several servers in the long run -/

set_option linter.unusedSectionVars false

namespace Verif.QueueSpec

open Filter Topology

section
variable {m : ℕ} [NeZero m]

/-- The server that is free first. -/
noncomputable def first (F : Fin m → ℝ) : Fin m := (Finite.exists_min F).choose

theorem first_le (F : Fin m → ℝ) (i : Fin m) : F (first F) ≤ F i := (Finite.exists_min F).choose_spec i

variable (m) in
/-- When each of `m` servers is free, before the `n`-th agent is served; the agent goes to the server that is free first. -/
noncomputable def free (A S : ℕ → ℝ) : ℕ → Fin m → ℝ
  | 0 => fun _ => 0
  | n + 1 => Function.update (free A S n) (first (free A S n))
      (max (∑ j ∈ Finset.range (n + 1), A j) (free A S n (first (free A S n))) + S n)

variable (m) in
/-- When the service of the `n`-th agent starts. -/
noncomputable def begins (A S : ℕ → ℝ) (n : ℕ) : ℝ :=
  max (∑ j ∈ Finset.range (n + 1), A j) (free m A S n (first (free m A S n)))

variable {A S : ℕ → ℝ}

theorem free_succ (n : ℕ) : free m A S (n + 1) = Function.update (free m A S n) (first (free m A S n)) (begins m A S n + S n) :=
  rfl

variable (m) in
/-- How many of the first `n` services end after `u`. -/
noncomputable def going (A S : ℕ → ℝ) (n : ℕ) (u : ℝ) : ℕ :=
  (List.range n).countP fun j => decide (u < begins m A S j + S j)

theorem going_succ (n : ℕ) (u : ℝ) :
    going m A S (n + 1) u = going m A S n u + if u < begins m A S n + S n then 1 else 0 := by
  simp [going, List.range_succ, List.countP_append, List.countP_cons]

/-- How many servers are busy after `u`. -/
noncomputable def busy (F : Fin m → ℝ) (u : ℝ) : ℕ := (Finset.univ.filter fun i => u < F i).card

theorem busy_update_le (F : Fin m → ℝ) (b : Fin m) (v u : ℝ) :
    busy (Function.update F b v) u ≤ busy F u + if u < v then 1 else 0 := by
  unfold busy
  split
  · rename_i h
    refine (Finset.card_le_card (t := insert b (Finset.univ.filter fun i => u < F i)) fun i hi => ?_).trans
      (Finset.card_insert_le _ _)
    by_cases hb : i = b
    · simp [hb]
    · simpa [Function.update_of_ne hb, hb] using hi
  · rename_i h
    rw [add_zero]
    refine Finset.card_le_card fun i hi => ?_
    by_cases hb : i = b
    · subst hb; simp at hi; exact absurd hi h
    · simpa [Function.update_of_ne hb] using hi

theorem busy_update_ge (F : Fin m → ℝ) (b : Fin m) (v u : ℝ) (hb : F b ≤ u) :
    busy F u + (if u < v then 1 else 0) ≤ busy (Function.update F b v) u := by
  unfold busy
  have hn : b ∉ Finset.univ.filter fun i => u < F i := by simpa using hb
  split
  · rename_i h
    rw [← Finset.card_insert_of_notMem hn]
    refine Finset.card_le_card fun i hi => ?_
    rcases Finset.mem_insert.mp hi with hi' | hi'
    · subst hi'; simpa using h
    · have : i ≠ b := by rintro rfl; exact hn hi'
      simpa [Function.update_of_ne this] using hi'
  · rw [add_zero]
    refine Finset.card_le_card fun i hi => ?_
    have : i ≠ b := by rintro rfl; exact hn hi
    simpa [Function.update_of_ne this] using hi

theorem first_free_mono (hS : ∀ j, 0 ≤ S j) :
    Monotone fun n => free m A S n (first (free m A S n)) := by
  refine monotone_nat_of_le_succ fun n => ?_
  rw [free_succ]
  generalize hb : first (Function.update (free m A S n) (first (free m A S n)) (begins m A S n + S n)) = b
  by_cases h : b = first (free m A S n)
  · rw [h, Function.update_self]
    exact (le_max_right _ _).trans (le_add_of_nonneg_right (hS n))
  · rw [Function.update_of_ne h]
    exact first_le _ _

theorem going_le (hS : ∀ j, 0 ≤ S j) (n : ℕ) {u : ℝ} (hu : free m A S n (first (free m A S n)) ≤ u) :
    going m A S n u ≤ busy (free m A S n) u := by
  induction n with
  | zero => simp [going]
  | succ n ih =>
    have h1 := (first_free_mono (m := m) (A := A) hS n.le_succ).trans hu
    rw [going_succ, free_succ]
    exact (Nat.add_le_add_right (ih h1) _).trans (busy_update_ge _ _ _ _ h1)

theorem le_going (n : ℕ) {u : ℝ} (hu : 0 ≤ u) : busy (free m A S n) u ≤ going m A S n u := by
  induction n with
  | zero => simp [busy, free, going, not_lt.mpr hu]
  | succ n ih =>
    rw [going_succ, free_succ]
    exact (busy_update_le _ _ _ _).trans (Nat.add_le_add_right ih _)

theorem going_mono (u : ℝ) : Monotone fun n => going m A S n u :=
  monotone_nat_of_le_succ fun n => by rw [going_succ]; exact Nat.le_add_right _ _

/-- There is a free server from the time on that `free` says. -/
theorem going_lt_iff (hS : ∀ j, 0 ≤ S j) (n : ℕ) {u : ℝ} (hu : 0 ≤ u) :
    going m A S n u < m ↔ free m A S n (first (free m A S n)) ≤ u := by
  constructor
  · intro h
    by_contra hc
    have : busy (free m A S n) u = m := by
      unfold busy
      rw [Finset.filter_true_of_mem fun i _ => (not_le.mp hc).trans_le (first_le _ i)]
      simp
    have := le_going (m := m) (A := A) (S := S) n hu
    omega
  · intro h
    refine (going_le hS n h).trans_lt ?_
    unfold busy
    have : (Finset.univ.filter fun i => u < free m A S n i) ⊂ Finset.univ :=
      Finset.filter_ssubset.mpr ⟨first (free m A S n), by simp, not_lt.mpr h⟩
    simpa using Finset.card_lt_card this

/-! ## Comparison with one server that is `m` times as fast -/

variable (m) in
/-- How long the `n`-th agent waits. -/
noncomputable def waitAt (A S : ℕ → ℝ) (n : ℕ) : ℝ := begins m A S n - ∑ j ∈ Finset.range (n + 1), A j

theorem waitAt_eq (n : ℕ) :
    waitAt m A S n = max 0 (free m A S n (first (free m A S n)) - ∑ j ∈ Finset.range (n + 1), A j) := by
  rw [waitAt, begins, ← max_sub_sub_right, sub_self]

theorem waitAt_nonneg (n : ℕ) : 0 ≤ waitAt m A S n := by
  rw [waitAt_eq]; exact le_max_left _ _

/-- The longest of the first `n` services. -/
noncomputable def longest (S : ℕ → ℝ) : ℕ → ℝ
  | 0 => 0
  | n + 1 => max (longest S n) (S n)

theorem longest_mono (S : ℕ → ℝ) : Monotone (longest S) := monotone_nat_of_le_succ fun _ => le_max_left _ _

theorem longest_nonneg (S : ℕ → ℝ) (n : ℕ) : 0 ≤ longest S n := longest_mono S n.zero_le

theorem begins_mono (hA : ∀ j, 0 ≤ A j) (hS : ∀ j, 0 ≤ S j) : Monotone (begins m A S) := by
  intro i j hij
  refine max_le_max (Finset.sum_le_sum_of_subset_of_nonneg ?_ fun k _ _ => hA k) (first_free_mono hS hij)
  exact Finset.range_mono (by omega)

theorem free_le (hA : ∀ j, 0 ≤ A j) (hS : ∀ j, 0 ≤ S j) (n : ℕ) (i : Fin m) :
    free m A S n i ≤ begins m A S n + longest S n := by
  induction n with
  | zero =>
    have h1 : 0 ≤ ∑ j ∈ Finset.range (0 + 1), A j := Finset.sum_nonneg fun j _ => hA j
    have h2 := le_max_left (∑ j ∈ Finset.range (0 + 1), A j) (free m A S 0 (first (free m A S 0)))
    simp only [free, longest, add_zero, begins]
    simp only [free] at h2
    exact h1.trans h2
  | succ n ih =>
    have h1 := begins_mono (m := m) hA hS n.le_succ
    have h2 := longest_mono S n.le_succ
    rw [free_succ]
    by_cases hb : i = first (free m A S n)
    · rw [hb, Function.update_self]
      exact add_le_add h1 (le_max_right _ _)
    · rw [Function.update_of_ne hb]
      exact ih.trans (add_le_add h1 h2)

variable (m) in
/-- The work that is left when the `n`-th agent comes. -/
noncomputable def load (A S : ℕ → ℝ) (n : ℕ) : ℝ := ∑ i, max 0 (free m A S n i - ∑ j ∈ Finset.range (n + 1), A j)

theorem wait_le_load (n : ℕ) : m * waitAt m A S n ≤ load m A S n := by
  have : ∑ _i : Fin m, waitAt m A S n ≤ load m A S n := by
    refine Finset.sum_le_sum fun i _ => ?_
    rw [waitAt_eq]
    exact max_le_max le_rfl (sub_le_sub_right (first_le _ i) _)
  simpa using this

theorem load_le_wait (hA : ∀ j, 0 ≤ A j) (hS : ∀ j, 0 ≤ S j) (n : ℕ) :
    load m A S n ≤ m * (waitAt m A S n + longest S n) := by
  have : load m A S n ≤ ∑ _i : Fin m, (waitAt m A S n + longest S n) := by
    refine Finset.sum_le_sum fun i _ => max_le (add_nonneg (waitAt_nonneg n) (longest_nonneg S n)) ?_
    have := free_le (m := m) hA hS n i
    rw [waitAt]
    linarith
  simpa [mul_add] using this

/-- What is left of the work of one server after the next time between arrivals. -/
theorem load_succ (n : ℕ) : load m A S (n + 1) = ∑ i, max 0 ((if i = first (free m A S n) then waitAt m A S n + S n else
    free m A S n i - ∑ j ∈ Finset.range (n + 1), A j) - A (n + 1)) := by
  refine Finset.sum_congr rfl fun i _ => ?_
  rw [free_succ, Finset.sum_range_succ _ (n + 1)]
  split
  · rename_i h
    rw [h, Function.update_self, waitAt]
    congr 1; ring
  · rename_i h
    rw [Function.update_of_ne h]
    congr 1; ring

theorem load_split (n : ℕ) : load m A S n + S n - m * A (n + 1) = ∑ i, ((if i = first (free m A S n) then
    waitAt m A S n + S n else max 0 (free m A S n i - ∑ j ∈ Finset.range (n + 1), A j)) - A (n + 1)) := by
  rw [Finset.sum_sub_distrib]
  have h1 : ∀ i, (if i = first (free m A S n) then waitAt m A S n + S n else
      max 0 (free m A S n i - ∑ j ∈ Finset.range (n + 1), A j)) =
      max 0 (free m A S n i - ∑ j ∈ Finset.range (n + 1), A j) + if i = first (free m A S n) then S n else 0 := by
    intro i
    split
    · rename_i h
      rw [h, waitAt_eq]
    · rw [add_zero]
  simp_rw [h1]
  rw [Finset.sum_add_distrib]
  simp [load]

theorem load_ge (hA : ∀ j, 0 ≤ A j) (n : ℕ) : load m A S n + S n - m * A (n + 1) ≤ load m A S (n + 1) := by
  rw [load_split, load_succ]
  refine Finset.sum_le_sum fun i _ => ?_
  have := hA (n + 1)
  split
  · exact le_max_right _ _
  · rcases le_total 0 (free m A S n i - ∑ j ∈ Finset.range (n + 1), A j) with h | h
    · rw [max_eq_right h]; exact le_max_right _ _
    · rw [max_eq_left h]
      exact le_trans (by linarith) (le_max_left _ _)

theorem load_eq (hA : ∀ j, 0 ≤ A j) (n : ℕ) (hw : 0 < waitAt m A S (n + 1)) :
    load m A S (n + 1) = load m A S n + S n - m * A (n + 1) := by
  rw [load_split, load_succ]
  refine Finset.sum_congr rfl fun i _ => ?_
  have h0 := hA (n + 1)
  have h1 : 0 < free m A S (n + 1) i - ∑ j ∈ Finset.range (n + 1 + 1), A j := by
    rw [waitAt_eq] at hw
    have h2 : 0 < free m A S (n + 1) (first (free m A S (n + 1))) - ∑ j ∈ Finset.range (n + 1 + 1), A j := by
      rcases lt_max_iff.mp hw with h | h
      · exact absurd h (lt_irrefl _)
      · exact h
    linarith [first_le (free m A S (n + 1)) i]
  rw [free_succ, Finset.sum_range_succ _ (n + 1)] at h1
  split
  · rename_i h
    rw [h, Function.update_self] at h1
    rw [max_eq_right]
    rw [waitAt]
    linarith
  · rename_i h
    rw [Function.update_of_ne h] at h1
    rw [max_eq_right (by linarith), max_eq_right (by linarith)]

theorem load_bounds (hA : ∀ j, 0 ≤ A j) (hS : ∀ j, 0 ≤ S j) (n : ℕ) :
    wait (fun j => m * A j) S n ≤ load m A S n ∧ load m A S n ≤ wait (fun j => m * A j) S n + m * longest S n := by
  have hn : ∀ n, 0 ≤ load m A S n := fun n => Finset.sum_nonneg fun i _ => le_max_left _ _
  induction n with
  | zero =>
    refine ⟨hn 0, ?_⟩
    have h1 : 0 ≤ A 0 := hA 0
    simp [load, free, longest, wait, h1]
  | succ n ih =>
    constructor
    · rw [wait]
      exact max_le (hn _) ((by linarith [ih.1] : _ ≤ load m A S n + S n - m * A (n + 1)).trans (load_ge hA n))
    · rcases (waitAt_nonneg (m := m) (A := A) (S := S) (n + 1)).eq_or_lt with h | h
      · have := load_le_wait (m := m) hA hS (n + 1)
        rw [← h, zero_add] at this
        linarith [wait_nonneg (fun j => m * A j) S (n + 1)]
      · rw [load_eq hA n h, wait]
        have h1 := le_max_right 0 (wait (fun j => m * A j) S n + S n - m * A (n + 1))
        have h2 : (m : ℝ) * longest S n ≤ m * longest S (n + 1) := by
          gcongr
          exact longest_mono S n.le_succ
        linarith [ih.2]

/-- Waiting times at `m` servers and at one that is `m` times as fast differ by the longest service or less. -/
theorem near_one (hA : ∀ j, 0 ≤ A j) (hS : ∀ j, 0 ≤ S j) (n : ℕ) :
    |waitAt m A S n - wait (fun j => m * A j) S n / m| ≤ longest S n := by
  have hm : (0 : ℝ) < m := by exact_mod_cast Nat.pos_of_ne_zero (NeZero.ne m)
  obtain ⟨h1, h2⟩ := load_bounds (m := m) hA hS n
  have h3 := wait_le_load (m := m) (A := A) (S := S) n
  have h4 := load_le_wait (m := m) hA hS n
  rw [abs_le]
  constructor
  · rw [neg_le_sub_iff_le_add, div_le_iff₀ hm]
    linarith
  · rw [sub_le_iff_le_add, ← sub_le_iff_le_add', le_div_iff₀ hm]
    linarith

/-! ## The long run -/

theorem longest_small {S : ℕ → ℝ} {σ : ℝ}
    (h : Tendsto (fun n : ℕ => (∑ i ∈ Finset.range n, S i) / n) atTop (𝓝 σ)) :
    Tendsto (fun n : ℕ => longest S n / n) atTop (𝓝 0) := by
  -- single services are small
  have h1 : Tendsto (fun n : ℕ => S n / n) atTop (𝓝 0) := by
    have h2 := (tendsto_add_atTop_iff_nat 1).mpr h
    have h3 : Tendsto (fun n : ℕ => ((n : ℝ) + 1) / n) atTop (𝓝 1) := by
      have : Tendsto (fun n : ℕ => 1 + 1 / (n : ℝ)) atTop (𝓝 (1 + 0)) :=
        tendsto_const_nhds.add tendsto_one_div_atTop_nhds_zero_nat
      rw [add_zero] at this
      refine this.congr' ?_
      filter_upwards [eventually_gt_atTop 0] with n hn
      have : (n : ℝ) ≠ 0 := by exact_mod_cast hn.ne'
      field_simp
    have h4 := (h2.mul h3).sub h
    rw [mul_one, sub_self] at h4
    refine h4.congr' ?_
    filter_upwards [eventually_gt_atTop 0] with n hn
    have : (n : ℝ) ≠ 0 := by exact_mod_cast hn.ne'
    rw [Finset.sum_range_succ]
    push_cast
    field_simp
    ring
  refine Metric.tendsto_atTop.mpr fun ε hε => ?_
  obtain ⟨N, hN0, hN⟩ : ∃ N, 0 < N ∧ ∀ n ≥ N, dist (S n / n) 0 < ε / 2 := by
    obtain ⟨N, hN⟩ := Metric.tendsto_atTop.mp h1 (ε / 2) (by linarith)
    exact ⟨N + 1, N.succ_pos, fun n hn => hN n (by omega)⟩
  have hb : ∀ n, N ≤ n → longest S n ≤ max (longest S N) (ε / 2 * n) := by
    intro n hn
    induction n, hn using Nat.le_induction with
    | base => exact le_max_left _ _
    | succ n hn ih =>
      rw [longest]
      have h2 : ε / 2 * (n : ℝ) ≤ ε / 2 * ((n + 1 : ℕ) : ℝ) := by
        push_cast
        nlinarith
      refine max_le (ih.trans (max_le_max le_rfl h2)) ?_
      have h3 := hN n hn
      have hn0 : (0 : ℝ) < n := by exact_mod_cast hN0.trans_le hn
      rw [Real.dist_eq, sub_zero, abs_lt, div_lt_iff₀ hn0] at h3
      exact (h3.2.le.trans h2).trans (le_max_right _ _)
  obtain ⟨K, hK⟩ := exists_nat_gt (2 * longest S N / ε)
  refine ⟨max N (K + 1), fun n hn => ?_⟩
  have hn0 : (0 : ℝ) < n := by exact_mod_cast (by omega : 0 < n)
  have hKn : (K : ℝ) ≤ n := by exact_mod_cast (by omega : K ≤ n)
  rw [Real.dist_eq, sub_zero, abs_of_nonneg (div_nonneg (longest_nonneg S n) hn0.le), div_lt_iff₀ hn0]
  refine (hb n (by omega)).trans_lt (max_lt ?_ (by nlinarith))
  have := hK.trans_le hKn
  rw [div_lt_iff₀ hε] at this
  nlinarith [longest_nonneg S N]

theorem waitAt_limit (hA : ∀ j, 0 ≤ A j) (hS : ∀ j, 0 ≤ S j) {σ α : ℝ}
    (h1 : Tendsto (fun n : ℕ => (∑ i ∈ Finset.range n, S i) / n) atTop (𝓝 σ))
    (h2 : Tendsto (fun n : ℕ => (∑ i ∈ Finset.range n, A (i + 1)) / n) atTop (𝓝 α)) :
    Tendsto (fun n : ℕ => waitAt m A S n / n) atTop (𝓝 (max 0 (σ / m - α))) := by
  have hm : (0 : ℝ) < m := by exact_mod_cast Nat.pos_of_ne_zero (NeZero.ne m)
  have h3 : Tendsto (fun n : ℕ => excess (fun j => m * A j) S n / n) atTop (𝓝 (σ - m * α)) := by
    refine (h1.sub (h2.const_mul (m : ℝ))).congr fun n => ?_
    rw [excess, Finset.sum_sub_distrib, ← Finset.mul_sum]
    ring
  have h4 := (wait_limit h3).div_const (m : ℝ)
  have e : max 0 (σ - m * α) / m = max 0 (σ / m - α) := by
    rw [← max_div_div_right hm.le, zero_div, sub_div, mul_div_cancel_left₀ _ hm.ne']
  rw [e] at h4
  have h5 : Tendsto (fun n : ℕ => waitAt m A S n / n - wait (fun j => m * A j) S n / n / m) atTop (𝓝 0) := by
    refine squeeze_zero_norm (fun n => ?_) (longest_small h1)
    have := near_one (m := m) hA hS n
    rw [Real.norm_eq_abs, show waitAt m A S n / n - wait (fun j => m * A j) S n / n / m =
      (waitAt m A S n - wait (fun j => m * A j) S n / m) / n by ring, abs_div, Nat.abs_cast]
    gcongr
  have := h5.add h4
  rw [zero_add] at this
  refine this.congr fun n => ?_
  ring

end

/-! ## The queue -/

/-- As `OneServer`, with `m` servers. -/
structure ManyServers (c : QCfg (WithTop ℝ)) (m : ℕ) (A S : ℕ → ℝ) : Prop where
  kind : c.kind = .server
  servers : c.servers = .fin m
  cap : c.activeCap = .inf
  deactive : c.deactiveT = ⊤
  arr : ∀ j t, c.arrivalF j t = t + (A j : ℝ)
  svc : ∀ j t, c.serviceF j t = t + (S j : ℝ)
  arr_nonneg : ∀ j, 0 ≤ A j
  svc_nonneg : ∀ j, 0 ≤ S j

namespace ManyServers

variable {c : QCfg (WithTop ℝ)} {m : ℕ} [NeZero m] {A S : ℕ → ℝ}

theorem endless (h : ManyServers c m A S) : Endless c where
  kind := h.kind
  cap := h.cap
  deactive := h.deactive
  zero := WithTop.coe_lt_top (0 : ℝ)
  fin j t ht := by
    rw [h.arr]
    exact WithTop.add_lt_top.mpr ⟨ht, WithTop.coe_lt_top _⟩

theorem forward (h : ManyServers c m A S) : Forward c :=
  ⟨fun n t => by rw [h.arr]; exact OneServer.le_add_coe t (h.arr_nonneg n),
    fun n t => by rw [h.svc]; exact OneServer.le_add_coe t (h.svc_nonneg n)⟩

theorem drawn_eq (h : ManyServers c m A S) (n : ℕ) :
    NetSpec.drawn c.arrivalF 0 0 n = ((∑ j ∈ Finset.range n, A j : ℝ) : WithTop ℝ) := by
  induction n with
  | zero => rfl
  | succ n ih =>
    rw [NetSpec.drawn, ih, h.arr, Finset.sum_range_succ, Nat.zero_add]
    norm_cast

theorem count_eq (p : List (WithTop ℝ)) (i : ℕ) (u : ℝ)
    (hp : p = (List.range i).map fun j => ((begins m A S j + S j : ℝ) : WithTop ℝ)) :
    p.countP ((u : WithTop ℝ) < ·) = going m A S i u := by
  rw [hp, List.countP_map, going]
  refine List.countP_congr fun j _ => ?_
  simp only [Function.comp_apply, decide_eq_true_eq, WithTop.coe_lt_coe]

/-- When the `i`-th agent comes, and when its service starts. -/
theorem times (h : ManyServers c m A S) {b : Bool} {s : QS (WithTop ℝ)} {l : List (QS (WithTop ℝ))}
    (ht : Traj c b AloneOk s l) (i : ℕ) :
    (∀ p, (atStage 0 (stamps s l))[i]? = some p →
      p = ((c.edge.idx, i), ((∑ j ∈ Finset.range (i + 1), A j : ℝ) : WithTop ℝ))) ∧
    ∀ p, (atStage 1 (stamps s l))[i]? = some p → p = ((c.edge.idx, i), (begins m A S i : WithTop ℝ)) := by
  have hk : Simple c := .inl h.kind
  have hf := h.forward
  have hT : Traj c b FcfsOk s l := Traj.mono (fun _ _ => AloneOk.fcfs) ht
  have hal := Traj.alone h.endless ht
  have hin := hT.fcfsInv hk hf rfl
  obtain ⟨hids, hst, -⟩ := C83_start_times hk hf hT
  have arr : ∀ (i : ℕ) (p : (Nat × Nat) × WithTop ℝ), (atStage 0 (stamps s l))[i]? = some p →
      p = ((c.edge.idx, i), ((∑ j ∈ Finset.range (i + 1), A j : ℝ) : WithTop ℝ)) := by
    intro i p hp
    rw [hal.made] at hp
    obtain ⟨hi, hp⟩ := List.getElem?_eq_some_iff.mp hp
    rw [← hp]
    simp [h.drawn_eq]
  have len : (atStage 1 (stamps s l)).length ≤ (atStage 0 (stamps s l)).length := by
    have := hin.fcfs.1
    simpa using this
  refine ⟨arr i, ?_⟩
  induction i using Nat.strong_induction_on with
  | _ i ih =>
    intro p hp
    obtain ⟨hi, -⟩ := List.getElem?_eq_some_iff.mp hp
    obtain ⟨q, hq⟩ : ∃ q, (atStage 0 (stamps s l))[i]? = some q := ⟨_, List.getElem?_eq_getElem (by omega)⟩
    have hq' := arr i q hq
    have id1 : p.1 = q.1 := by
      have h1 : ((atStage 1 (stamps s l)).map Prod.fst ++ s.queue.map (·.id))[i]? = some p.1 := by
        rw [List.getElem?_append_left (by simpa using hi), List.getElem?_map, hp]
        rfl
      rw [hids, List.getElem?_map, hq] at h1
      simpa using h1.symm
    have hs := hst i q.2 p.2 (by rw [List.getElem?_map, hq]; rfl) (by rw [List.getElem?_map, hp]; rfl)
    have hends : (ends c.serviceF ((atStage 1 (stamps s l)).map Prod.snd)).take i =
        (List.range i).map fun j => ((begins m A S j + S j : ℝ) : WithTop ℝ) := by
      refine List.ext_getElem? fun j => ?_
      rw [List.getElem?_take]
      split
      · rename_i hj
        obtain ⟨u, hu⟩ : ∃ u, (atStage 1 (stamps s l))[j]? = some u := ⟨_, List.getElem?_eq_getElem (by omega)⟩
        have hu' := ih j hj u hu
        simp only [ends, List.getElem?_mapIdx, List.getElem?_map, hu, List.getElem?_range hj, Option.map_some]
        rw [hu', h.svc]
        norm_cast
      · rename_i hj
        rw [List.getElem?_eq_none (by simpa using hj)]
    rw [hends] at hs
    obtain ⟨⟨t1, t2⟩, t3⟩ := hs
    have hc : ∀ u : ℝ, c.servers.lt (((List.range i).map fun j => ((begins m A S j + S j : ℝ) : WithTop ℝ)).countP
        ((u : WithTop ℝ) < ·)) = true ↔ going m A S i u < m := by
      intro u
      rw [h.servers, count_eq _ i u rfl]
      simp [Cap.lt]
    rw [hq'] at t1 t3
    have a0 : 0 ≤ ∑ j ∈ Finset.range (i + 1), A j := Finset.sum_nonneg fun j _ => h.arr_nonneg j
    have h2 : p.2 = (begins m A S i : WithTop ℝ) := by
      apply le_antisymm
      · refine t3 _ ?_ ((hc _).mpr ?_)
        · exact WithTop.coe_le_coe.mpr (le_max_left _ _)
        · exact (going_lt_iff h.svc_nonneg i (a0.trans (le_max_left _ _))).mpr (le_max_right _ _)
      · cases hp2 : p.2 with
        | top => exact le_top
        | coe u =>
          rw [hp2] at t1 t2
          have t1' : ∑ j ∈ Finset.range (i + 1), A j ≤ u := WithTop.coe_le_coe.mp t1
          have := (going_lt_iff h.svc_nonneg i (a0.trans t1')).mp ((hc u).mp t2)
          exact WithTop.coe_le_coe.mpr (max_le t1' this)
    rw [hq'] at id1
    exact Prod.ext id1 h2

/-- Nobody waits for ever. -/
theorem starts (h : ManyServers c m A S) (hA : ∀ x, ∃ n, x < ∑ j ∈ Finset.range n, A j) {b : Bool} {s : QS (WithTop ℝ)}
    {l : List (QS (WithTop ℝ))} (ht : Traj c b AloneOk s l) (ha : s.active = true) (i : ℕ) :
    ∃ s' l', Traj c b AloneOk s' l' ∧ (s :: l) <:+ (s' :: l') ∧ i < (atStage 1 (stamps s' l')).length := by
  have hk : Simple c := .inl h.kind
  have hf := h.forward
  obtain ⟨K, hK⟩ := hA (begins m A S i)
  have hmono : Monotone fun n => ∑ j ∈ Finset.range n, A j := by
    refine monotone_nat_of_le_succ fun n => ?_
    rw [Finset.sum_range_succ]
    exact le_add_of_nonneg_right (h.arr_nonneg n)
  obtain ⟨s', l', g1, g2, g3, g4⟩ := Traj.onward h.endless ht ha (2 * (K + i + 1))
  refine ⟨s', l', g1, g2, ?_⟩
  have hT : Traj c b FcfsOk s' l' := Traj.mono (fun _ _ => AloneOk.fcfs) g1
  have hin := hT.fcfsInv hk hf rfl
  have len2 : (agents s'.departures).length + (atStage 2 (stamps s' l')).length = (atStage 1 (stamps s' l')).length := by
    have := hin.out.length_eq
    simpa [ends] using this
  have len1 : (atStage 1 (stamps s' l')).length ≤ (atStage 0 (stamps s' l')).length := by
    have := hin.fcfs.1
    simpa using this
  by_contra hcon
  have hlen : K + i + 1 ≤ (atStage 0 (stamps s' l')).length := by omega
  have clock : ((begins m A S i : ℝ) : WithTop ℝ) < s'.currentT := by
    obtain ⟨q, hq⟩ : ∃ q, (atStage 0 (stamps s' l'))[K + i]? = some q := ⟨_, List.getElem?_eq_getElem (by omega)⟩
    have h1 := (h.times g1 (K + i)).1 q hq
    have h2 := hin.early q (List.mem_of_getElem? hq)
    rw [h1] at h2
    refine lt_of_lt_of_le ?_ h2
    have h3 := hK.trans_le (hmono (show K ≤ K + i + 1 by omega))
    simp only at h3 ⊢
    exact_mod_cast h3
  have hq : s'.queue ≠ [] := by
    intro h0
    have := congrArg List.length hin.fifo
    rw [h0] at this
    simp at this
    omega
  have hw := (g1.reach.inv hk).work hq
  rw [hin.srv, h.servers] at hw
  have hfull : m ≤ (agents s'.departures).length := by
    by_contra h0
    simp [Cap.lt] at hw
    omega
  -- all servers are busy with services that end after the time at which the agent should have started
  have hstart : ends c.serviceF ((atStage 1 (stamps s' l')).map Prod.snd) =
      (List.range (atStage 1 (stamps s' l')).length).map fun j => ((begins m A S j + S j : ℝ) : WithTop ℝ) := by
    refine List.ext_getElem? fun j => ?_
    rcases Nat.lt_or_ge j (atStage 1 (stamps s' l')).length with hj | hj
    · obtain ⟨u, hu⟩ : ∃ u, (atStage 1 (stamps s' l'))[j]? = some u := ⟨_, List.getElem?_eq_getElem hj⟩
      have hu' := (h.times g1 j).2 u hu
      simp only [ends, List.getElem?_mapIdx, List.getElem?_map, hu, List.getElem?_range hj, Option.map_some]
      rw [hu', h.svc]
      norm_cast
    · rw [List.getElem?_eq_none (by simpa [ends] using hj), List.getElem?_eq_none (by simpa using hj)]
  have hperm := hin.out.map Prod.snd
  rw [List.map_append, List.map_snd_zip (by simp [ends])] at hperm
  have hcnt := hperm.countP_eq (((begins m A S i : ℝ) : WithTop ℝ) < ·)
  rw [List.countP_append, count_eq _ _ _ hstart] at hcnt
  have hall : ((agents s'.departures).map (fun a => (a.id, a.time)) |>.map Prod.snd).countP
      (((begins m A S i : ℝ) : WithTop ℝ) < ·) = (agents s'.departures).length := by
    rw [List.countP_eq_length.mpr]
    · simp
    · intro x hx
      simp only [List.map_map, List.mem_map, Function.comp_apply] at hx
      obtain ⟨a, ha1, rfl⟩ := hx
      have := (hT.reach.clock hk hf fun _ _ h => h.1).dep a ha1
      exact decide_eq_true (clock.trans_le this)
  have hle : going m A S (atStage 1 (stamps s' l')).length (begins m A S i) ≤ going m A S i (begins m A S i) :=
    going_mono _ (by omega)
  have a0 : 0 ≤ ∑ j ∈ Finset.range (i + 1), A j := Finset.sum_nonneg fun j _ => h.arr_nonneg j
  have hlt := (going_lt_iff (m := m) (A := A) h.svc_nonneg i (a0.trans (le_max_left _ _))).mpr (le_max_right _ _)
  have hlt' : going m A S i (begins m A S i) < m := hlt
  omega

end ManyServers

/-! ## The statements -/

theorem wait_div (A S : ℕ → ℝ) {m : ℕ} [NeZero m] (n : ℕ) :
    wait (fun j => m * A j) S n / m = wait A (fun j => S j / m) n := by
  have hm : (0 : ℝ) < m := by exact_mod_cast Nat.pos_of_ne_zero (NeZero.ne m)
  induction n with
  | zero => simp [wait]
  | succ n ih =>
    rw [wait, wait, ← ih, ← max_div_div_right hm.le, zero_div]
    congr 1
    field_simp

theorem longest_le {S : ℕ → ℝ} {n : ℕ} {B : ℝ} (h0 : 0 ≤ B) (hB : ∀ j < n, S j ≤ B) : longest S n ≤ B := by
  induction n with
  | zero => exact h0
  | succ n ih => exact max_le (ih fun j hj => hB j (by omega)) (hB n (by omega))

/-- C145: compare a queue with `m` servers with one whose only server is `m` times as fast. In any histories of the two the
`n`-th agent comes at the same time, and the times at which its service starts differ by no more than the longest of the
services before takes at the first. -/
theorem C145_fast_server {c c1 : QCfg (WithTop ℝ)} {m : ℕ} (hm : 0 < m) {A S : ℕ → ℝ} (h : ManyServers c m A S)
    (h1 : OneServer c1 A fun j => S j / m) {b b1 : Bool} {s s1 : QS (WithTop ℝ)} {l l1 : List (QS (WithTop ℝ))}
    (ht : Traj c b AloneOk s l) (ht1 : Traj c1 b1 AloneOk s1 l1) {n : ℕ} {p q p1 q1 : (ℕ × ℕ) × WithTop ℝ}
    (hp : (atStage 0 (stamps s l))[n]? = some p) (hq : (atStage 1 (stamps s l))[n]? = some q)
    (hp1 : (atStage 0 (stamps s1 l1))[n]? = some p1) (hq1 : (atStage 1 (stamps s1 l1))[n]? = some q1)
    {B : ℝ} (h0 : 0 ≤ B) (hB : ∀ j < n, S j ≤ B) :
    p.2 = p1.2 ∧ q.2 ≤ q1.2 + (B : WithTop ℝ) ∧ q1.2 ≤ q.2 + (B : WithTop ℝ) := by
  have : NeZero m := ⟨hm.ne'⟩
  obtain ⟨e1, e2⟩ := h.times ht n
  obtain ⟨f1, f2⟩ := h1.times ht1 n
  rw [e1 p hp, e2 q hq, f1 p1 hp1, f2 q1 hq1]
  have key := (near_one (m := m) h.arr_nonneg h.svc_nonneg n).trans (longest_le h0 hB)
  rw [wait_div, waitAt, abs_le] at key
  refine ⟨rfl, ?_, ?_⟩
  · simp only
    norm_cast
    linarith
  · simp only
    norm_cast
    linarith

open MeasureTheory ProbabilityTheory

/-- C145: if the times between arrivals and the services are independent, each of one law, with means `α > 0` and `σ`, then
with probability 1 there are waiting times `W 0`, `W 1`, ... such that in every history of the queue with `m` servers the
service of the `n`-th agent starts `W n` after its arrival, once the queue is active every agent's service starts in the end,
and `W n / n` tends to `max 0 (σ / m - α)`. -/
theorem C145_long_run {Ω : Type*} [MeasurableSpace Ω] {P : Measure Ω} [IsProbabilityMeasure P] {A S : ℕ → Ω → ℝ}
    (h : RenewalInput P A S) (hpos : 0 < ∫ ω, A 0 ω ∂P) {m : ℕ} (hm : 0 < m) {c : Ω → QCfg (WithTop ℝ)}
    (hc : ∀ ω, ManyServers (c ω) m (A · ω) (S · ω)) :
    ∀ᵐ ω ∂P, ∃ W : ℕ → ℝ, (∀ n, 0 ≤ W n) ∧
      (∀ b s l, Traj (c ω) b AloneOk s l →
        (∀ n p q, (atStage 0 (stamps s l))[n]? = some p → (atStage 1 (stamps s l))[n]? = some q →
          q.1 = p.1 ∧ q.2 = p.2 + (W n : WithTop ℝ)) ∧
        (s.active = true → ∀ n, ∃ s' l', Traj (c ω) b AloneOk s' l' ∧ (s :: l) <:+ (s' :: l') ∧
          n < (atStage 1 (stamps s' l')).length)) ∧
      Tendsto (fun n : ℕ => W n / n) atTop (𝓝 (max 0 ((∫ ω, S 0 ω ∂P) / m - ∫ ω, A 0 ω ∂P))) := by
  have : NeZero m := ⟨hm.ne'⟩
  have hS := strong_law_ae_real (μ := P) S h.svc_int
    (fun i j hij => h.indep.indepFun (i := .inr i) (j := .inr j) (by simpa using hij)) h.svc
  have hA := strong_law_ae_real (μ := P) (fun i => A (i + 1)) ((h.arr 1).integrable_iff.mpr h.arr_int)
    (fun i j hij => h.indep.indepFun (i := .inl (i + 1)) (j := .inl (j + 1)) (by simpa using hij))
    fun i => (h.arr (i + 1)).trans (h.arr (0 + 1)).symm
  rw [(h.arr (0 + 1)).integral_eq] at hA
  filter_upwards [hS, hA, h.unbounded hpos] with ω h1 h2 h3
  refine ⟨waitAt m (A · ω) (S · ω), waitAt_nonneg, fun b s l ht => ⟨fun n p q hp hq => ?_, fun ha n =>
    (hc ω).starts h3 ht ha n⟩, waitAt_limit (hc ω).arr_nonneg (hc ω).svc_nonneg h1 h2⟩
  obtain ⟨e1, e2⟩ := (hc ω).times ht n
  rw [e1 p hp, e2 q hq]
  refine ⟨rfl, ?_⟩
  rw [← WithTop.coe_add, waitAt, add_sub_cancel]

/-- Two servers, arrivals every 1 and services of 3: all hypotheses are met, there are histories of the queue and of the one
with a server twice as fast in which the third agent is served, and its services start at 4 and at 4. -/
example : ∃ s l s1 l1, Traj { givenQueue (fun _ => 1) (fun _ => 3) with servers := .fin 2 } true AloneOk s l ∧
    Traj (givenQueue (fun _ => 1) fun _ => 3 / 2) true AloneOk s1 l1 ∧
    (atStage 1 (stamps s l))[2]? = some ((7, 2), ((4 : ℝ) : WithTop ℝ)) ∧
    (atStage 1 (stamps s1 l1))[2]? = some ((7, 2), ((4 : ℝ) : WithTop ℝ)) := by
  have h : ManyServers { givenQueue (fun _ => 1) (fun _ => 3) with servers := .fin 2 } 2 (fun _ => 1) fun _ => 3 :=
    ⟨rfl, rfl, rfl, rfl, fun _ _ => rfl, fun _ _ => rfl, fun _ => by norm_num, fun _ => by norm_num⟩
  have h1 : OneServer (givenQueue (fun _ => 1) fun _ => 3 / 2) (fun _ => 1) fun _ => 3 / 2 :=
    givenQueue_one (fun _ => by norm_num) fun _ => by norm_num
  have hu : ∀ x : ℝ, ∃ n : ℕ, x < ∑ j ∈ Finset.range n, (1 : ℝ) := fun x => by simpa using exists_nat_gt x
  obtain ⟨s, g1, g2⟩ := h.endless.start true
  obtain ⟨s', l', g3, -, g4⟩ := h.starts hu g1 g2 2
  obtain ⟨r, k1, k2⟩ := h1.endless.start true
  obtain ⟨r', k', k3, -, k4⟩ := h1.starts hu k1 k2 2
  refine ⟨s', l', r', k', g3, k3, ?_, ?_⟩
  · rw [List.getElem?_eq_getElem g4]
    congr 1
    rw [(h.times g3 2).2 _ (List.getElem?_eq_getElem g4)]
    have hS : ∀ j : ℕ, (0 : ℝ) ≤ (fun _ : ℕ => (3 : ℝ)) j := fun _ => by norm_num
    have b0 : begins 2 (fun _ => 1) (fun _ => 3) 0 = 1 := by norm_num [begins, free]
    have s1 : ∀ u, going 2 (fun _ => 1) (fun _ => 3) 1 u = if u < 4 then 1 else 0 := fun u => by
      rw [going_succ, b0]; norm_num [going]
    have b1 : begins 2 (fun _ => 1) (fun _ => 3) 1 = 2 := by
      have := (going_lt_iff (m := 2) (A := fun _ => 1) hS 1 (u := 0) le_rfl).mp (by rw [s1]; norm_num)
      rw [begins, max_eq_left]
      · norm_num
      · exact this.trans (by norm_num)
    have s2 : ∀ u, going 2 (fun _ => 1) (fun _ => 3) 2 u = (if u < 4 then 1 else 0) + if u < 5 then 1 else 0 := fun u => by
      rw [going_succ, b1, s1]; norm_num
    have b2 : begins 2 (fun _ => 1) (fun _ => 3) 2 = 4 := by
      have k1 := (going_lt_iff (m := 2) (A := fun _ => 1) hS 2 (u := 4) (by norm_num)).mp (by rw [s2]; norm_num)
      have k2 : 4 ≤ free 2 (fun _ => 1) (fun _ => 3) 2 (first (free 2 (fun _ => 1) (fun _ => 3) 2)) := by
        by_contra hc
        have hc := not_le.mp hc
        have k3 := (going_lt_iff (m := 2) (A := fun _ => 1) hS 2 (u := max 0 _) (le_max_left _ _)).mpr (le_max_right _ _)
        rw [s2, if_pos (max_lt (by norm_num) hc), if_pos (max_lt (by norm_num) (hc.trans (by norm_num)))] at k3
        exact absurd k3 (by norm_num)
      rw [begins, le_antisymm k1 k2]
      norm_num
    rw [b2]
    norm_num [givenQueue]
  · rw [List.getElem?_eq_getElem k4]
    congr 1
    rw [(h1.times k3 2).2 _ (List.getElem?_eq_getElem k4)]
    have hw : wait (fun _ => 1) (fun _ => 3 / 2) 2 = 1 := by norm_num [wait]
    rw [hw]
    norm_num [givenQueue]

end Verif.QueueSpec
