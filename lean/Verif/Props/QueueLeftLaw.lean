import Verif.Props.QueueLeft

/-! # C150: how the number of agents found and left behind settles, for all laws -/

set_option linter.unusedSectionVars false

namespace Verif.QueueSpec

open Filter Topology MeasureTheory ProbabilityTheory

section
variable {Ω : Type*} [MeasurableSpace Ω] {P : Measure Ω} [IsProbabilityMeasure P] {A S : ℕ → Ω → ℝ}

/-- Large values get unlikely. -/
theorem large_null {X : Ω → ℝ} (hX : Measurable X) : Tendsto (fun M : ℕ => P {ω | (M : ℝ) ≤ X ω}) atTop (𝓝 0) := by
  have h1 := tendsto_measure_iInter_atTop (μ := P) (s := fun M : ℕ => {ω | (M : ℝ) ≤ X ω})
    (fun M => (measurableSet_le measurable_const hX).nullMeasurableSet)
    (fun a b hab ω (hω : (b : ℝ) ≤ X ω) => show (a : ℝ) ≤ X ω from (Nat.cast_le.mpr hab).trans hω) ⟨0, measure_ne_top _ _⟩
  have e : ⋂ M : ℕ, {ω | (M : ℝ) ≤ X ω} = ∅ := by
    ext ω
    simp only [Set.mem_iInter, Set.mem_ofPred_eq, Set.mem_empty_iff_false, iff_false, not_forall, not_le]
    exact exists_nat_gt (X ω)
  rwa [e, measure_empty] at h1

theorem RenewalInput.wait_ge (h : RenewalInput P A S) (n : ℕ) (x : ℝ) :
    P {ω | x ≤ wait (A · ω) (S · ω) n} = P {ω | x ≤ peak (A · ω) (S · ω) n} :=
  (h.wait_peak n).measure_mem_eq measurableSet_Ici

/-- The chance to wait for `x` or longer grows. -/
theorem RenewalInput.wait_ge_mono (h : RenewalInput P A S) (x : ℝ) : Monotone fun n => P {ω | x ≤ wait (A · ω) (S · ω) n} := by
  intro m n hmn
  simp only [h.wait_ge]
  exact measure_mono fun ω (hω : x ≤ _) => show x ≤ _ from hω.trans (peak_mono _ _ hmn)

/-- The chance to stay for `y` or longer, given the service. -/
theorem RenewalInput.stay_ge (h : RenewalInput P A S) (n : ℕ) (y : ℝ) :
    P {ω | y ≤ wait (A · ω) (S · ω) n + S n ω} = ∫⁻ x, P {ω | y + x ≤ wait (A · ω) (S · ω) n} ∂P.map fun ω => -S 0 ω := by
  have hS : ∀ i, Measurable (S i) := fun i => h.meas (.inr i)
  have hi : (fun ω => wait (A · ω) (S · ω) n) ⟂ᵢ[P] S n := by
    have := (h.waitFrom_indep 0 n).comp measurable_id (measurable_fst : Measurable fun p : ℝ × ℝ => p.1)
    simpa only [Function.comp_def, waitFrom_zero, id] using this
  have h1 := sum_law (h.wait_meas n).neg (hS n).neg (hi.comp measurable_neg measurable_neg) (-y)
  have e : P.map (-S n) = P.map fun ω => -S 0 ω := ((h.svc n).comp measurable_neg).map_eq
  rw [e] at h1
  refine Eq.trans ?_ (h1.trans (lintegral_congr fun x => ?_))
  · congr 1
    ext ω
    simp only [Set.mem_ofPred_eq, Pi.neg_apply]
    constructor <;> intro <;> linarith
  · congr 1
    ext ω
    simp only [Set.mem_ofPred_eq, Pi.neg_apply]
    constructor <;> intro <;> linarith

theorem RenewalInput.stay_ge_mono (h : RenewalInput P A S) (y : ℝ) :
    Monotone fun n => P {ω | y ≤ wait (A · ω) (S · ω) n + S n ω} := by
  intro m n hmn
  simp only [h.stay_ge]
  exact lintegral_mono fun x => h.wait_ge_mono _ hmn

/-- The chance that `k` agents or more come during the stay of the `n`-th one. -/
theorem RenewalInput.left_ge (h : RenewalInput P A S) (n k : ℕ) :
    P {ω | ∑ j ∈ Finset.range k, A (n + 1 + j) ω ≤ wait (A · ω) (S · ω) n + S n ω} =
      ∫⁻ y, P {ω | y ≤ wait (A · ω) (S · ω) n + S n ω} ∂power (P.map (A 0)) k := by
  have mstay : Measurable fun ω => wait (A · ω) (S · ω) n + S n ω := (h.wait_meas n).add (h.meas (.inr n))
  have mY : Measurable fun ω => ∑ j ∈ Finset.range k, A (n + 1 + j) ω :=
    Finset.measurable_sum _ fun j _ => h.meas (.inl (n + 1 + j))
  have hi := (h.stay_later n k).comp (φ := fun x : ℝ => -x) (ψ := fun x : ℝ => x) measurable_neg measurable_id
  have h1 := sum_law (X := fun ω => -(wait (A · ω) (S · ω) n + S n ω)) (Y := fun ω => ∑ j ∈ Finset.range k, A (n + 1 + j) ω)
    mstay.neg mY hi 0
  rw [h.sum_power] at h1
  simp only [zero_sub, neg_le_neg_iff] at h1
  rw [← h1]
  congr 1
  ext ω
  simp only [Set.mem_ofPred_eq]
  constructor <;> intro <;> linarith

theorem RenewalInput.left_ge_mono (h : RenewalInput P A S) (k : ℕ) :
    Monotone fun n => P {ω | ∑ j ∈ Finset.range k, A (n + 1 + j) ω ≤ wait (A · ω) (S · ω) n + S n ω} := by
  intro m n hmn
  simp only [h.left_ge]
  exact lintegral_mono fun y => h.stay_ge_mono y hmn

/-- With services shorter in the mean than times between arrivals many agents are seldom left behind. -/
theorem RenewalInput.left_few (h : RenewalInput P A S) (hA0 : ∀ i ω, 0 ≤ A i ω) (hS0 : ∀ i ω, 0 ≤ S i ω)
    (hlt : ∫ ω, S 0 ω ∂P < ∫ ω, A 0 ω ∂P) :
    Tendsto (fun k => ⨆ n, P {ω | ∑ j ∈ Finset.range k, A (n + 1 + j) ω ≤ wait (A · ω) (S · ω) n + S n ω}) atTop (𝓝 0) := by
  have mS : Measurable (S 0) := h.meas (.inr 0)
  have mY : ∀ n k, Measurable fun ω => ∑ j ∈ Finset.range k, A (n + j) ω := fun n k =>
    Finset.measurable_sum _ fun j _ => h.meas (.inl (n + j))
  have bound : ∀ M k : ℕ, (⨆ n, P {ω | ∑ j ∈ Finset.range k, A (n + 1 + j) ω ≤ wait (A · ω) (S · ω) n + S n ω}) ≤
      (P {ω | (M : ℝ) ≤ 2 * top A S ω} + P {ω | (M : ℝ) ≤ 2 * S 0 ω}) + P {ω | ∑ j ∈ Finset.range k, A j ω < M} := by
    intro M k
    refine iSup_le fun n => ?_
    have h1 : P {ω | (M : ℝ) / 2 ≤ wait (A · ω) (S · ω) n} ≤ P {ω | (M : ℝ) ≤ 2 * top A S ω} := by
      rw [h.wait_ge]
      refine measure_mono_ae ?_
      filter_upwards [h.bounded hlt] with ω hω hx
      have hx' : (M : ℝ) / 2 ≤ peak (A · ω) (S · ω) n := hx
      have : peak (A · ω) (S · ω) n ≤ top A S ω := peak_le_iff.mpr fun k _ => le_ciSup hω k
      change (M : ℝ) ≤ 2 * top A S ω
      linarith
    have h2 : P {ω | (M : ℝ) ≤ 2 * S n ω} = P {ω | (M : ℝ) ≤ 2 * S 0 ω} :=
      (h.svc n).measure_mem_eq (s := {x | (M : ℝ) ≤ 2 * x}) (measurableSet_le measurable_const (by fun_prop))
    have h3 : P {ω | ∑ j ∈ Finset.range k, A (n + 1 + j) ω < M} = P {ω | ∑ j ∈ Finset.range k, A j ω < M} := by
      have e1 := h.sum_power (n + 1) k
      have e2 := h.sum_power 0 k
      simp only [zero_add] at e2
      have e3 := congrArg (fun μ => μ (Set.Iio (M : ℝ))) (e1.trans e2.symm)
      have m0 := mY 0 k
      simp only [zero_add] at m0
      rwa [Measure.map_apply (mY _ _) measurableSet_Iio, Measure.map_apply m0 measurableSet_Iio] at e3
    rw [← h2, ← h3]
    refine le_trans (measure_mono (t := ({ω | (M : ℝ) / 2 ≤ wait (A · ω) (S · ω) n} ∪ {ω | (M : ℝ) ≤ 2 * S n ω}) ∪
      {ω | ∑ j ∈ Finset.range k, A (n + 1 + j) ω < M}) fun ω hω => ?_) ((measure_union_le _ _).trans
      (add_le_add ((measure_union_le _ _).trans (add_le_add h1 le_rfl)) le_rfl))
    by_contra hcon
    rw [Set.mem_ofPred_eq] at hω
    simp only [Set.mem_union, Set.mem_ofPred_eq, not_or, not_le, not_lt] at hcon
    obtain ⟨⟨c1, c2⟩, c3⟩ := hcon
    linarith
  have l1 : Tendsto (fun M : ℕ => P {ω | (M : ℝ) ≤ 2 * top A S ω} + P {ω | (M : ℝ) ≤ 2 * S 0 ω}) atTop (𝓝 0) := by
    simpa using (large_null (P := P) (h.top_meas.const_mul 2)).add (large_null (P := P) (mS.const_mul 2))
  have l2 : ∀ M : ℕ, Tendsto (fun k => P {ω | ∑ j ∈ Finset.range k, A j ω < M}) atTop (𝓝 0) := by
    intro M
    have m0 : ∀ k, Measurable fun ω => ∑ j ∈ Finset.range k, A j ω := fun k => by simpa only [zero_add] using mY 0 k
    have h1 := tendsto_measure_iInter_atTop (μ := P) (s := fun k : ℕ => {ω | ∑ j ∈ Finset.range k, A j ω < M})
      (fun k => (measurableSet_lt (m0 k) measurable_const).nullMeasurableSet)
      (fun a b hab ω (hω : _ < _) => show _ < _ from
        (Finset.sum_le_sum_of_subset_of_nonneg (Finset.range_mono hab) fun j _ _ => hA0 j ω).trans_lt hω) ⟨0, measure_ne_top _ _⟩
    have e : P (⋂ k : ℕ, {ω | ∑ j ∈ Finset.range k, A j ω < M}) = 0 := by
      have hpos : 0 < ∫ ω, A 0 ω ∂P := (integral_nonneg (hS0 0)).trans_lt hlt
      refine measure_mono_null (fun ω hω => ?_) (ae_iff.mp (h.unbounded hpos))
      intro hall
      obtain ⟨k, hk⟩ := hall M
      have := Set.mem_iInter.mp hω k
      simp only [Set.mem_ofPred_eq] at this
      linarith
    rwa [e] at h1
  refine ENNReal.tendsto_nhds_zero.mpr fun ε hε => ?_
  have hε2 : 0 < ε / 2 := ENNReal.half_pos hε.ne'
  obtain ⟨M, hM⟩ := (ENNReal.tendsto_nhds_zero.mp l1 _ hε2).exists
  filter_upwards [ENNReal.tendsto_nhds_zero.mp (l2 M) _ hε2] with k hk
  exact (bound M k).trans ((add_le_add hM hk).trans (ENNReal.add_halves ε).le)

/-- With longer and longer waiting times more and more agents are left behind. -/
theorem RenewalInput.left_many_of (h : RenewalInput P A S)
    (f1 : ∀ x : ℝ, Tendsto (fun n => P {ω | x ≤ wait (A · ω) (S · ω) n}) atTop (𝓝 1)) (k : ℕ) :
    Tendsto (fun n => P {ω | ∑ j ∈ Finset.range k, A (n + 1 + j) ω ≤ wait (A · ω) (S · ω) n + S n ω}) atTop (𝓝 1) := by
  have mS : Measurable fun ω => -S 0 ω := Measurable.neg (h.meas (.inr 0))
  have mA : Measurable (A 0) := h.meas (.inl 0)
  have := Measure.isProbabilityMeasure_map (μ := P) mS.aemeasurable
  have := Measure.isProbabilityMeasure_map (μ := P) mA.aemeasurable
  have := power_prob (P.map (A 0)) k
  have f2 : ∀ y : ℝ, Tendsto (fun n => P {ω | y ≤ wait (A · ω) (S · ω) n + S n ω}) atTop (𝓝 1) := by
    intro y
    simp only [h.stay_ge]
    have := lintegral_tendsto_of_tendsto_of_monotone (μ := P.map fun ω => -S 0 ω)
      (f := fun n x => P {ω | y + x ≤ wait (A · ω) (S · ω) n}) (F := fun _ => 1) (fun n => ?_)
      (Eventually.of_forall fun x => h.wait_ge_mono _) (Eventually.of_forall fun x => f1 _)
    · simpa using this
    · have hm : MeasurableSet {p : ℝ × Ω | y + p.1 ≤ wait (A · p.2) (S · p.2) n} :=
        measurableSet_le (by fun_prop) ((h.wait_meas n).comp measurable_snd)
      exact (measurable_measure_prodMk_left hm).aemeasurable
  simp only [h.left_ge]
  have := lintegral_tendsto_of_tendsto_of_monotone (μ := power (P.map (A 0)) k)
    (f := fun n y => P {ω | y ≤ wait (A · ω) (S · ω) n + S n ω}) (F := fun _ => 1) (fun n => ?_)
    (Eventually.of_forall fun x => h.stay_ge_mono _) (Eventually.of_forall fun x => f2 _)
  · simpa using this
  · have hm : MeasurableSet {p : ℝ × Ω | p.1 ≤ wait (A · p.2) (S · p.2) n + S n p.2} :=
      measurableSet_le measurable_fst (((h.wait_meas n).add (h.meas (.inr n))).comp measurable_snd)
    exact (measurable_measure_prodMk_left hm).aemeasurable

/-- With services longer in the mean than times between arrivals more and more agents are left behind. -/
theorem RenewalInput.left_many (h : RenewalInput P A S) (hlt : ∫ ω, A 0 ω ∂P < ∫ ω, S 0 ω ∂P) (k : ℕ) :
    Tendsto (fun n => P {ω | ∑ j ∈ Finset.range k, A (n + 1 + j) ω ≤ wait (A · ω) (S · ω) n + S n ω}) atTop (𝓝 1) := by
  refine h.left_many_of (fun x => ?_) k
  simp only [h.wait_ge]
  have h1 := tendsto_measure_iUnion_atTop (μ := P) (s := fun n : ℕ => {ω | x ≤ peak (A · ω) (S · ω) n})
    fun a b hab ω (hω : x ≤ _) => show x ≤ _ from hω.trans (peak_mono _ _ hab)
  have e : P (⋃ n : ℕ, {ω | x ≤ peak (A · ω) (S · ω) n}) = 1 := by
    rw [← mem_ae_iff_prob_eq_one (MeasurableSet.iUnion fun n => measurableSet_le measurable_const (h.peak_meas n))]
    filter_upwards [h.excess_limit] with ω hlim
    have h1 : Tendsto (fun n : ℕ => excess (A · ω) (S · ω) n / n * n) atTop atTop :=
      hlim.pos_mul_atTop (by linarith) tendsto_natCast_atTop_atTop
    obtain ⟨n, hn1, hn2⟩ := ((h1.eventually_gt_atTop x).and (eventually_gt_atTop 0)).exists
    rw [div_mul_cancel₀ _ (by positivity)] at hn1
    exact Set.mem_iUnion.mpr ⟨n, hn1.le.trans (peak_le_iff.mp le_rfl n le_rfl)⟩
  rwa [e] at h1

/-- C150: let times between arrivals and services be independent, each of one law, with means `a` and `σ`. The chance that the
`n`-th agent leaves `k` or more agents behind is the chance that agent `n + k` finds `k` or more; both grow with `n`, and tend to
one limit `p k`. If `σ < a` then `p` belongs to a law of finite numbers: `p k` tends to 0. If `a < σ` then `p k = 1` for
all `k`. -/
theorem C150_numbers_settle (h : RenewalInput P A S) {c : Ω → QCfg (WithTop ℝ)} (hc : ∀ ω, OneServer (c ω) (A · ω) (S · ω)) :
    ∃ (E F : ℕ → ℕ → Set Ω) (p : ℕ → ENNReal), (∀ n k, MeasurableSet (E n k)) ∧ (∀ n k, MeasurableSet (F n k)) ∧
      (∀ ω b s s1 l n, Traj (c ω) b AloneOk s (s1 :: l) → s1.numDepartures = n → s.numDepartures = n + 1 →
        ∀ k : ℕ, (k : ℤ) ≤ s.numSystem ↔ ω ∈ E n k) ∧
      (∀ ω b s s1 l n, Traj (c ω) b AloneOk s (s1 :: l) → s1.numArrivals = n → s.numArrivals = n + 1 →
        ∀ k : ℕ, (k : ℤ) ≤ s1.numSystem ↔ ω ∈ F n k) ∧
      (∀ n k, F (n + k) k = E n k) ∧ (∀ k, Monotone fun n => P (E n k)) ∧ (∀ k, Monotone fun n => P (F n k)) ∧
      (∀ k, Tendsto (fun n => P (E n k)) atTop (𝓝 (p k))) ∧ (∀ k, Tendsto (fun n => P (F n k)) atTop (𝓝 (p k))) ∧
      p 0 = 1 ∧ Antitone p ∧ (∫ ω, S 0 ω ∂P < ∫ ω, A 0 ω ∂P → Tendsto p atTop (𝓝 0)) ∧
      (∫ ω, A 0 ω ∂P < ∫ ω, S 0 ω ∂P → ∀ k, p k = 1) := by
  have hS0 : ∀ i ω, 0 ≤ S i ω := fun i ω => (hc ω).svc_nonneg i
  have hA0 : ∀ i ω, 0 ≤ A i ω := fun i ω => (hc ω).arr_nonneg i
  have mstay : ∀ n, Measurable fun ω => wait (A · ω) (S · ω) n + S n ω := fun n => (h.wait_meas n).add (h.meas (.inr n))
  have mY : ∀ n k, Measurable fun ω => ∑ j ∈ Finset.range k, A (n + 1 + j) ω := fun n k =>
    Finset.measurable_sum _ fun j _ => h.meas (.inl (n + 1 + j))
  set E : ℕ → ℕ → Set Ω := fun n k => {ω | ∑ j ∈ Finset.range k, A (n + 1 + j) ω ≤ wait (A · ω) (S · ω) n + S n ω} with hE
  have mE : ∀ n k, MeasurableSet (E n k) := fun n k => measurableSet_le (mY n k) (mstay n)
  have limE : ∀ k, Tendsto (fun n => P (E n k)) atTop (𝓝 (⨆ n, P (E n k))) := fun k => tendsto_atTop_iSup (h.left_ge_mono k)
  refine ⟨E, fun n k => if k ≤ n then E (n - k) k else ∅, fun k => ⨆ n, P (E n k), mE, fun n k => ?_,
    fun ω b s s1 l n ht h1 h2 k => C147_left (hc ω) ht h1 h2 k, fun ω b s s1 l n ht h1 h2 k => ?_, fun n k => ?_,
    h.left_ge_mono, fun k m n hmn => ?_, limE, fun k => ?_, ?_, ?_, h.left_few hA0 hS0, fun hlt k => ?_⟩
  · dsimp only
    split
    · exact mE _ _
    · exact MeasurableSet.empty
  · dsimp only
    split
    · rename_i hkn
      exact C147_found (hc ω) ht (by omega) (by omega)
    · rename_i hkn
      have ht1 : Traj (c ω) b AloneOk s1 l := by cases ht; assumption
      obtain ⟨-, -, e⟩ := (hc ω).numbers ht1
      simp only [Set.mem_empty_iff_false, iff_false]
      omega
  · dsimp only
    rw [if_pos (by omega), Nat.add_sub_cancel]
  · dsimp only
    by_cases hkm : k ≤ m
    · rw [if_pos hkm, if_pos (hkm.trans hmn)]
      exact h.left_ge_mono k (Nat.sub_le_sub_right hmn k)
    · rw [if_neg hkm, measure_empty]
      exact zero_le
  · refine (tendsto_add_atTop_iff_nat k).mp ?_
    refine (limE k).congr fun n => ?_
    dsimp only
    rw [if_pos (by omega), Nat.add_sub_cancel]
  · have : ∀ n, P (E n 0) = 1 := by
      intro n
      have e : E n 0 = Set.univ := by
        ext ω
        have : 0 ≤ wait (A · ω) (S · ω) n + S n ω := add_nonneg (wait_nonneg _ _ _) (hS0 n ω)
        simpa [hE] using this
      rw [e, measure_univ]
    simp [this]
  · refine antitone_nat_of_succ_le fun k => iSup_mono fun n => measure_mono fun ω hω => ?_
    simp only [hE, Set.mem_ofPred_eq, Finset.sum_range_succ] at hω ⊢
    have := hA0 (n + 1 + k) ω
    linarith
  · exact tendsto_nhds_unique (limE k) (h.left_many hlt k)

end

/-- Times between arrivals of 2 and services of 0 or 3: the numbers settle; and the other way round they grow. -/
example : (∃ (E : ℕ → ℕ → Set (ℕ ⊕ ℕ → ℝ)) (p : ℕ → ENNReal),
    (∀ ω b s s1 l n, Traj (givenQueue (fun i => |ω (.inl i)|) fun i => |ω (.inr i)|) b AloneOk s (s1 :: l) →
      s1.numDepartures = n → s.numDepartures = n + 1 → ∀ k : ℕ, (k : ℤ) ≤ s.numSystem ↔ ω ∈ E n k) ∧
    (∀ k, Tendsto (fun n => Measure.infinitePi (laws (Measure.dirac 2) coin) (E n k)) atTop (𝓝 (p k))) ∧
    Tendsto p atTop (𝓝 0)) ∧
    ∃ E : ℕ → ℕ → Set (ℕ ⊕ ℕ → ℝ),
    (∀ ω b s s1 l n, Traj (givenQueue (fun i => |ω (.inl i)|) fun i => |ω (.inr i)|) b AloneOk s (s1 :: l) →
      s1.numDepartures = n → s.numDepartures = n + 1 → ∀ k : ℕ, (k : ℤ) ≤ s.numSystem ↔ ω ∈ E n k) ∧
    ∀ k, Tendsto (fun n => Measure.infinitePi (laws coin (Measure.dirac 2)) (E n k)) atTop (𝓝 1) := by
  have di : Integrable id (Measure.dirac (2 : ℝ)) := integrable_dirac (by simp)
  have dm : ∫ x : ℝ, |x| ∂Measure.dirac 2 = 2 := by simp
  constructor
  · obtain ⟨h1, h2, h3, h4⟩ := C133_met (Measure.dirac 2) coin di coin_int
    rw [coin_mean] at h3
    rw [dm] at h2
    obtain ⟨E, F, p, -, -, g1, -, -, -, -, g2, -, -, -, g3, -⟩ := C150_numbers_settle h1 h4
    exact ⟨E, p, g1, g2, g3 (by rw [h2, h3]; norm_num)⟩
  · obtain ⟨h1, h2, h3, h4⟩ := C133_met coin (Measure.dirac 2) coin_int di
    rw [coin_mean] at h2
    rw [dm] at h3
    obtain ⟨E, F, p, -, -, g1, -, -, -, -, g2, -, -, -, -, g3⟩ := C150_numbers_settle h1 h4
    have g4 := g3 (by rw [h2, h3]; norm_num)
    exact ⟨E, g1, fun k => by rw [← g4 k]; exact g2 k⟩

end Verif.QueueSpec
