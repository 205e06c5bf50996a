import Verif.Props.QueueWaitLaw
import Mathlib.MeasureTheory.Integral.Indicator

/-! # C139: the law the waiting time settles to -/

set_option linter.unusedSectionVars false

namespace Verif.QueueSpec

open Filter Topology MeasureTheory ProbabilityTheory

/-- Waiting times if the agent with number 0 has to wait for `v`. -/
noncomputable def waitFrom (v : ℝ) (A S : ℕ → ℝ) : ℕ → ℝ
  | 0 => v
  | n + 1 => max 0 (waitFrom v A S n + S n - A (n + 1))

theorem waitFrom_zero (A S : ℕ → ℝ) (n : ℕ) : waitFrom 0 A S n = wait A S n := by
  induction n with
  | zero => rfl
  | succ n ih => rw [waitFrom, ih]; rfl

theorem waitFrom_eq {v : ℝ} (hv : 0 ≤ v) (A S : ℕ → ℝ) (n : ℕ) :
    waitFrom v A S n = max (wait A S n) (v + excess A S n) := by
  induction n with
  | zero => simp [waitFrom, wait, excess, hv]
  | succ n ih =>
    rw [waitFrom, ih, wait, excess_succ, max_assoc, ← max_add_add_right, ← max_sub_sub_right]
    congr 2
    ring

/-- The draws before the `n`-th service. -/
def past (n : ℕ) : Set (ℕ ⊕ ℕ) := {x | Sum.elim (fun i => i ≤ n) (fun i => i < n) x}

section
variable {Ω : Type*} [MeasurableSpace Ω] {P : Measure Ω} [IsProbabilityMeasure P] {A S : ℕ → Ω → ℝ}

theorem waitFrom_past (v : ℝ) (n : ℕ) :
    Measurable[⨆ x ∈ past n, (inferInstance : MeasurableSpace ℝ).comap (Sum.elim A S x)]
      fun ω => waitFrom v (A · ω) (S · ω) n := by
  induction n with
  | zero => exact measurable_const
  | succ n ih =>
    have hle : (⨆ x ∈ past n, (inferInstance : MeasurableSpace ℝ).comap (Sum.elim A S x)) ≤
        ⨆ x ∈ past (n + 1), (inferInstance : MeasurableSpace ℝ).comap (Sum.elim A S x) := by
      refine biSup_mono fun x hx => ?_
      cases x with
      | inl i => exact Nat.le_succ_of_le hx
      | inr i => exact Nat.lt_succ_of_lt hx
    have hone : ∀ x ∈ past (n + 1),
        Measurable[⨆ x ∈ past (n + 1), (inferInstance : MeasurableSpace ℝ).comap (Sum.elim A S x)] (Sum.elim A S x) := by
      intro x hx
      refine measurable_iff_comap_le.mpr (le_iSup₂_of_le x hx le_rfl)
    have h1 := hone (.inr n) (Nat.lt_succ_self n)
    have h2 := hone (.inl (n + 1)) (le_refl (n + 1))
    have h3 : Measurable[⨆ x ∈ past (n + 1), (inferInstance : MeasurableSpace ℝ).comap (Sum.elim A S x)]
      fun ω => waitFrom v (A · ω) (S · ω) n := ih.mono hle le_rfl
    exact measurable_const.max ((h3.add h1).sub h2)

theorem RenewalInput.waitFrom_indep (h : RenewalInput P A S) (v : ℝ) (n : ℕ) :
    (fun ω => waitFrom v (A · ω) (S · ω) n) ⟂ᵢ[P] fun ω => (S n ω, A (n + 1) ω) := by
  have h0 := indep_iSup_of_disjoint (fun x => (h.meas x).comap_le) h.indep.iIndep
    (disjoint_compl_right (a := past n))
  have hone : ∀ x ∈ (past n)ᶜ,
      Measurable[⨆ x ∈ (past n)ᶜ, (inferInstance : MeasurableSpace ℝ).comap (Sum.elim A S x)] (Sum.elim A S x) := by
    intro x hx
    exact measurable_iff_comap_le.mpr (le_iSup₂_of_le x hx le_rfl)
  have h1 := hone (.inr n) (fun hx => absurd hx (lt_irrefl n))
  have h2 := hone (.inl (n + 1)) (fun hx => absurd hx (Nat.not_succ_le_self n))
  refine (IndepFun_iff_Indep _ _ _).mpr ?_
  refine indep_of_indep_of_le_left (indep_of_indep_of_le_right h0 ?_) ?_
  · exact measurable_iff_comap_le.mp (h1.prodMk h2)
  · exact measurable_iff_comap_le.mp (waitFrom_past v n)

theorem RenewalInput.waitFrom_meas (h : RenewalInput P A S) (n : ℕ) :
    Measurable fun p : ℝ × Ω => waitFrom p.1 (A · p.2) (S · p.2) n := by
  induction n with
  | zero => exact measurable_fst
  | succ n ih =>
    exact measurable_const.max ((ih.add ((h.meas (.inr n)).comp measurable_snd)).sub
      ((h.meas (.inl (n + 1))).comp measurable_snd))

/-- The law of a sum of independent numbers. -/
theorem sum_law {X Y : Ω → ℝ} (hX : Measurable X) (hY : Measurable Y) (hi : X ⟂ᵢ[P] Y) (x : ℝ) :
    P {ω | X ω + Y ω ≤ x} = ∫⁻ y, P {ω | X ω ≤ x - y} ∂P.map Y := by
  have hm : MeasurableSet {p : ℝ × ℝ | p.1 + p.2 ≤ x} := measurableSet_le (by fun_prop) measurable_const
  have h1 : P {ω | X ω + Y ω ≤ x} = P.map (fun ω => (X ω, Y ω)) {p : ℝ × ℝ | p.1 + p.2 ≤ x} := by
    rw [Measure.map_apply (hX.prodMk hY) hm]
    rfl
  have := Measure.isProbabilityMeasure_map (μ := P) hX.aemeasurable
  have := Measure.isProbabilityMeasure_map (μ := P) hY.aemeasurable
  rw [h1, (indepFun_iff_map_prod_eq_prod_map_map hX.aemeasurable hY.aemeasurable).mp hi,
    Measure.prod_apply_symm hm]
  refine lintegral_congr fun y => ?_
  rw [Measure.map_apply hX (measurable_prodMk_right hm)]
  congr 1
  ext ω
  simp [le_sub_iff_add_le]

/-- The law of a service less a time between arrivals. -/
noncomputable def stepLaw (P : Measure Ω) (A S : ℕ → Ω → ℝ) : Measure ℝ :=
  ((P.map (S 0)).prod (P.map (A 0))).map fun p => p.1 - p.2

theorem RenewalInput.step_law (h : RenewalInput P A S) (n : ℕ) :
    P.map (fun ω => S n ω - A (n + 1) ω) = stepLaw P A S := by
  have hm : Measurable fun p : ℝ × ℝ => p.1 - p.2 := by fun_prop
  have hA : ∀ i, Measurable (A i) := fun i => h.meas (.inl i)
  have hS : ∀ i, Measurable (S i) := fun i => h.meas (.inr i)
  have h1 : S n ⟂ᵢ[P] A (n + 1) := h.indep.indepFun (i := .inr n) (j := .inl (n + 1)) (by simp)
  rw [stepLaw, ← (h.svc n).map_eq, ← (h.arr (n + 1)).map_eq,
    ← (indepFun_iff_map_prod_eq_prod_map_map (hS n).aemeasurable (hA (n + 1)).aemeasurable).mp h1,
    Measure.map_map hm ((hS n).prodMk (hA _))]
  rfl

theorem RenewalInput.next_law (h : RenewalInput P A S) (v : ℝ) (n : ℕ) {x : ℝ} (hx : 0 ≤ x) :
    P {ω | waitFrom v (A · ω) (S · ω) (n + 1) ≤ x} =
      ∫⁻ y, P {ω | waitFrom v (A · ω) (S · ω) n ≤ x - y} ∂stepLaw P A S := by
  have hA : ∀ i, Measurable (A i) := fun i => h.meas (.inl i)
  have hS : ∀ i, Measurable (S i) := fun i => h.meas (.inr i)
  have hW : Measurable fun ω => waitFrom v (A · ω) (S · ω) n := (h.waitFrom_meas n).comp measurable_prodMk_left
  have hi : (fun ω => waitFrom v (A · ω) (S · ω) n) ⟂ᵢ[P] fun ω => S n ω - A (n + 1) ω :=
    (h.waitFrom_indep v n).comp measurable_id (by fun_prop : Measurable fun p : ℝ × ℝ => p.1 - p.2)
  rw [← h.step_law n, ← sum_law (Y := fun ω => S n ω - A (n + 1) ω) hW ((hS n).sub (hA _)) hi]
  congr 1
  ext ω
  simp only [waitFrom, Set.mem_ofPred_eq, max_le_iff, hx, true_and, add_sub_assoc]

theorem RenewalInput.stay_law (h : RenewalInput P A S) (n : ℕ) (x : ℝ) :
    P {ω | wait (A · ω) (S · ω) n + S n ω ≤ x} = ∫⁻ y, P {ω | wait (A · ω) (S · ω) n ≤ x - y} ∂P.map (S 0) := by
  have hi : (fun ω => waitFrom 0 (A · ω) (S · ω) n) ⟂ᵢ[P] S n :=
    (h.waitFrom_indep 0 n).comp measurable_id (measurable_fst : Measurable fun p : ℝ × ℝ => p.1)
  simp only [waitFrom_zero] at hi
  rw [← (h.svc n).map_eq, ← sum_law (Y := S n) (h.wait_meas n) (h.meas (.inr n)) hi]

/-- The law `h` of a waiting time is that of the waiting time of the next agent. -/
def Settled (α σ h : Measure ℝ) : Prop :=
  (h.prod (σ.prod α)).map (fun p => max 0 (p.1 + p.2.1 - p.2.2)) = h

theorem settled_iff {α σ h : Measure ℝ} [IsProbabilityMeasure α] [IsProbabilityMeasure σ] [IsProbabilityMeasure h] :
    Settled α σ h ↔ h (Set.Iio 0) = 0 ∧
      ∀ x, 0 ≤ x → ∫⁻ y, h (Set.Iic (x - y)) ∂((σ.prod α).map fun p => p.1 - p.2) = h (Set.Iic x) := by
  have hm : Measurable fun p : ℝ × ℝ × ℝ => max 0 (p.1 + p.2.1 - p.2.2) := by fun_prop
  have hneg : ∀ x < 0, (h.prod (σ.prod α)).map (fun p => max 0 (p.1 + p.2.1 - p.2.2)) (Set.Iic x) = 0 := by
    intro x hx
    rw [Measure.map_apply hm measurableSet_Iic]
    convert measure_empty (μ := h.prod (σ.prod α))
    ext p
    simp [hx]
  have hneg' : (h.prod (σ.prod α)).map (fun p => max 0 (p.1 + p.2.1 - p.2.2)) (Set.Iio 0) = 0 := by
    rw [Measure.map_apply hm measurableSet_Iio]
    convert measure_empty (μ := h.prod (σ.prod α))
    ext p
    simp
  have hpos : ∀ x, 0 ≤ x → (h.prod (σ.prod α)).map (fun p => max 0 (p.1 + p.2.1 - p.2.2)) (Set.Iic x) =
      ∫⁻ y, h (Set.Iic (x - y)) ∂((σ.prod α).map fun p => p.1 - p.2) := by
    intro x hx
    have hi : Measurable fun y => h (Set.Iic (x - y)) :=
      (Antitone.measurable (f := fun y => h (Set.Iic (x - y))) fun a b hab =>
        measure_mono (Set.Iic_subset_Iic.mpr (by linarith)))
    rw [Measure.map_apply hm measurableSet_Iic, lintegral_map hi (by fun_prop),
      Measure.prod_apply_symm (hm measurableSet_Iic)]
    refine lintegral_congr fun y => ?_
    congr 1
    ext v
    simp only [Set.mem_preimage, Set.mem_Iic, max_le_iff, hx, true_and]
    constructor <;> intro h <;> linarith
  have := Measure.isProbabilityMeasure_map (μ := h.prod (σ.prod α)) hm.aemeasurable
  constructor
  · intro hs
    refine ⟨?_, fun x hx => ?_⟩
    · rw [Settled] at hs
      rw [hs] at hneg'
      exact hneg'
    · rw [← hpos x hx, hs]
  · rintro ⟨h1, h2⟩
    refine Measure.ext_of_Iic _ _ fun x => ?_
    by_cases hx : 0 ≤ x
    · rw [hpos x hx, h2 x hx]
    · rw [hneg x (not_le.mp hx)]
      exact (measure_mono_null (fun y hy => lt_of_le_of_lt hy (not_le.mp hx)) h1).symm

theorem RenewalInput.waitFrom_limit (h : RenewalInput P A S) (hlt : ∫ ω, S 0 ω ∂P < ∫ ω, A 0 ω ∂P) {v : ℝ} (hv : 0 ≤ v)
    (x : ℝ) : Tendsto (fun n => P {ω | waitFrom v (A · ω) (S · ω) n ≤ x}) atTop
      (𝓝 (P {ω | ∀ k, excess (A · ω) (S · ω) k ≤ x})) := by
  have h1 := (h.wait_limit_law x).2
  have h2 : Tendsto (fun n => P {ω | x - v < excess (A · ω) (S · ω) n}) atTop (𝓝 (P ∅)) := by
    refine tendsto_measure_of_ae_tendsto_indicator_of_isFiniteMeasure atTop .empty
      (fun n => measurableSet_lt measurable_const (h.excess_meas n)) ?_
    filter_upwards [h.excess_limit] with ω hω
    have h1 : Tendsto (fun n : ℕ => excess (A · ω) (S · ω) n / n * n) atTop atBot :=
      hω.neg_mul_atTop (by linarith) tendsto_natCast_atTop_atTop
    filter_upwards [eventually_gt_atTop 0, h1.eventually_le_atBot (x - v)] with n hn hle
    have : (n : ℝ) ≠ 0 := by exact_mod_cast hn.ne'
    rw [div_mul_cancel₀ _ this] at hle
    simpa using hle
  rw [measure_empty] at h2
  have h3 := ENNReal.Tendsto.sub h1 h2 (.inr ENNReal.zero_ne_top)
  rw [tsub_zero] at h3
  refine tendsto_of_tendsto_of_tendsto_of_le_of_le h3 h1 (fun n => ?_) (fun n => measure_mono fun ω hω => ?_)
  · rw [tsub_le_iff_right]
    refine (measure_mono fun ω hω => ?_).trans (measure_union_le _ _)
    by_cases hx : x - v < excess (A · ω) (S · ω) n
    · exact .inr hx
    · left
      rw [Set.mem_ofPred_eq, waitFrom_eq hv]
      exact max_le hω (by linarith)
  · rw [Set.mem_ofPred_eq, waitFrom_eq hv] at hω
    exact (max_le_iff.mp hω).1

theorem RenewalInput.law_meas (h : RenewalInput P A S) (n : ℕ) (x : ℝ) :
    Measurable fun p : ℝ × ℝ => P {ω | waitFrom p.1 (A · ω) (S · ω) n ≤ x - p.2} := by
  have h1 : MeasurableSet {q : (ℝ × ℝ) × Ω | waitFrom q.1.1 (A · q.2) (S · q.2) n ≤ x - q.1.2} :=
    measurableSet_le ((h.waitFrom_meas n).comp (by fun_prop : Measurable fun q : (ℝ × ℝ) × Ω => (q.1.1, q.2)))
      (by fun_prop)
  exact measurable_measure_prodMk_left h1

theorem RenewalInput.settled_stays (h : RenewalInput P A S) {η : Measure ℝ} [IsProbabilityMeasure η]
    (hη : Settled (P.map (A 0)) (P.map (S 0)) η) (n : ℕ) (x : ℝ) :
    ∫⁻ v, P {ω | waitFrom v (A · ω) (S · ω) n ≤ x} ∂η = η (Set.Iic x) := by
  have : IsProbabilityMeasure (P.map (A 0)) := Measure.isProbabilityMeasure_map (h.meas (.inl 0)).aemeasurable
  have : IsProbabilityMeasure (P.map (S 0)) := Measure.isProbabilityMeasure_map (h.meas (.inr 0)).aemeasurable
  obtain ⟨hneg, hstep⟩ := settled_iff.mp hη
  induction n generalizing x with
  | zero =>
    rw [← lintegral_indicator_one measurableSet_Iic]
    refine lintegral_congr fun v => ?_
    by_cases hv : v ≤ x <;> simp [waitFrom, hv]
  | succ n ih =>
    by_cases hx : 0 ≤ x
    · have e : ∀ v, P {ω | waitFrom v (A · ω) (S · ω) (n + 1) ≤ x} =
          ∫⁻ y, P {ω | waitFrom v (A · ω) (S · ω) n ≤ x - y} ∂stepLaw P A S := fun v => h.next_law v n hx
      simp_rw [e]
      have : IsProbabilityMeasure (stepLaw P A S) := by
        rw [← h.step_law 0]
        exact Measure.isProbabilityMeasure_map ((h.meas (.inr 0)).sub (h.meas (.inl 1))).aemeasurable
      rw [lintegral_lintegral_swap (h.law_meas n x).aemeasurable, ← hstep x hx]
      exact lintegral_congr fun y => ih (x - y)
    · have hx' := not_le.mp hx
      have e : ∀ v, P {ω | waitFrom v (A · ω) (S · ω) (n + 1) ≤ x} = 0 := by
        intro v
        convert measure_empty (μ := P)
        ext ω
        simp [waitFrom, hx']
      simp_rw [e]
      rw [lintegral_zero]
      exact (measure_mono_null (fun y hy => lt_of_le_of_lt hy hx') hneg).symm

theorem RenewalInput.settled_unique (h : RenewalInput P A S) (hlt : ∫ ω, S 0 ω ∂P < ∫ ω, A 0 ω ∂P) {η : Measure ℝ}
    [IsProbabilityMeasure η] (hη : Settled (P.map (A 0)) (P.map (S 0)) η) (x : ℝ) :
    η (Set.Iic x) = P {ω | ∀ k, excess (A · ω) (S · ω) k ≤ x} := by
  have : IsProbabilityMeasure (P.map (A 0)) := Measure.isProbabilityMeasure_map (h.meas (.inl 0)).aemeasurable
  have : IsProbabilityMeasure (P.map (S 0)) := Measure.isProbabilityMeasure_map (h.meas (.inr 0)).aemeasurable
  obtain ⟨hneg, -⟩ := settled_iff.mp hη
  have h1 : Tendsto (fun n => ∫⁻ v, P {ω | waitFrom v (A · ω) (S · ω) n ≤ x} ∂η) atTop
      (𝓝 (∫⁻ _, P {ω | ∀ k, excess (A · ω) (S · ω) k ≤ x} ∂η)) := by
    refine tendsto_lintegral_of_dominated_convergence (fun _ => 1) (fun n => ?_) (fun n => ?_) (by simp) ?_
    · have := (h.law_meas n x).comp (measurable_prodMk_right (y := (0 : ℝ)))
      simpa [Function.comp_def] using this
    · exact Eventually.of_forall fun v => prob_le_one
    · have : ∀ᵐ v ∂η, 0 ≤ v := by
        rw [ae_iff]
        simpa [Set.Iio_def] using hneg
      filter_upwards [this] with v hv
      exact h.waitFrom_limit hlt hv x
  simp_rw [h.settled_stays hη] at h1
  have := tendsto_nhds_unique h1 tendsto_const_nhds
  rw [lintegral_const, measure_univ, mul_one] at this
  exact this.symm

/-- A law stays the same if the chances tend to a multiple of it. -/
theorem RenewalInput.part_settled (h : RenewalInput P A S) {η : Measure ℝ} [IsProbabilityMeasure η] {q : ENNReal} (hq : q ≠ 0)
    (hq' : q ≠ ⊤) (hη : ∀ x, Tendsto (fun n => P {ω | wait (A · ω) (S · ω) n ≤ x}) atTop (𝓝 (q * η (Set.Iic x)))) :
    Settled (P.map (A 0)) (P.map (S 0)) η := by
  have : IsProbabilityMeasure (P.map (A 0)) := Measure.isProbabilityMeasure_map (h.meas (.inl 0)).aemeasurable
  have : IsProbabilityMeasure (P.map (S 0)) := Measure.isProbabilityMeasure_map (h.meas (.inr 0)).aemeasurable
  rw [settled_iff]
  constructor
  · have h1 : ∀ k : ℕ, η (Set.Iic (-1 / (k + 1) : ℝ)) = 0 := by
      intro k
      refine (mul_eq_zero.mp (?_ : q * _ = 0)).resolve_left hq
      refine tendsto_nhds_unique (hη _) (tendsto_const_nhds.congr fun n => ?_)
      symm
      convert measure_empty (μ := P)
      ext ω
      have h1 : (-1 / (k + 1) : ℝ) < 0 := div_neg_of_neg_of_pos (by norm_num) (by positivity)
      have h2 : 0 ≤ wait (A · ω) (S · ω) n := by cases n with
        | zero => exact le_rfl
        | succ n => exact le_max_left _ _
      simpa using h1.trans_le h2
    have h2 : Set.Iio (0 : ℝ) ⊆ ⋃ k : ℕ, Set.Iic (-1 / (k + 1) : ℝ) := by
      intro y hy
      obtain ⟨k, hk⟩ := exists_nat_one_div_lt (show (0 : ℝ) < -y from neg_pos.mpr hy)
      refine Set.mem_iUnion.mpr ⟨k, ?_⟩
      rw [Set.mem_Iic, neg_div]
      linarith
    exact measure_mono_null h2 (measure_iUnion_null h1)
  · intro x hx
    refine (ENNReal.mul_right_inj hq hq').mp ?_
    rw [← lintegral_const_mul' q _ hq']
    refine tendsto_nhds_unique ?_ ((tendsto_add_atTop_iff_nat 1).mpr (hη x))
    have e : ∀ n, P {ω | wait (A · ω) (S · ω) (n + 1) ≤ x} =
        ∫⁻ y, P {ω | wait (A · ω) (S · ω) n ≤ x - y} ∂stepLaw P A S := fun n => by
      simpa only [waitFrom_zero] using h.next_law 0 n hx
    simp_rw [e]
    have : IsProbabilityMeasure (stepLaw P A S) := by
      rw [← h.step_law 0]
      exact Measure.isProbabilityMeasure_map ((h.meas (.inr 0)).sub (h.meas (.inl 1))).aemeasurable
    refine tendsto_lintegral_of_dominated_convergence (fun _ => 1) (fun n => ?_) (fun n => ?_) (by simp) ?_
    · have := (h.law_meas n x).comp (measurable_prodMk_left (x := (0 : ℝ)))
      simpa [Function.comp_def, waitFrom_zero] using this
    · exact Eventually.of_forall fun v => prob_le_one
    · exact Eventually.of_forall fun y => hη _

theorem RenewalInput.limit_settled (h : RenewalInput P A S) {η : Measure ℝ} [IsProbabilityMeasure η]
    (hη : ∀ x, Tendsto (fun n => P {ω | wait (A · ω) (S · ω) n ≤ x}) atTop (𝓝 (η (Set.Iic x)))) :
    Settled (P.map (A 0)) (P.map (S 0)) η :=
  h.part_settled one_ne_zero ENNReal.one_ne_top (by simpa only [one_mul] using hη)

/-- C139: a law is the one the waiting times settle to just if it is the law of the waiting time of an agent whose
predecessor's waiting time has that law. -/
theorem C139_law (h : RenewalInput P A S) (hlt : ∫ ω, S 0 ω ∂P < ∫ ω, A 0 ω ∂P) {c : Ω → QCfg (WithTop ℝ)}
    (hc : ∀ ω, OneServer (c ω) (A · ω) (S · ω)) :
    ∃ W : ℕ → Ω → ℝ, (∀ n, Measurable (W n)) ∧
      (∀ ω b s l, Traj (c ω) b AloneOk s l → ∀ n p q, (atStage 0 (stamps s l))[n]? = some p →
        (atStage 1 (stamps s l))[n]? = some q → q.1 = p.1 ∧ q.2 = p.2 + (W n ω : WithTop ℝ)) ∧
      ∀ η : Measure ℝ, IsProbabilityMeasure η → (Settled (P.map (A 0)) (P.map (S 0)) η ↔
        ∀ x, Tendsto (fun n => P {ω | W n ω ≤ x}) atTop (𝓝 (η (Set.Iic x)))) := by
  refine ⟨fun n ω => wait (A · ω) (S · ω) n, h.wait_meas, fun ω b s l ht n p q hp hq => ?_, fun η hη => ⟨fun hs x => ?_,
    fun hs => h.limit_settled hs⟩⟩
  · obtain ⟨e1, e2⟩ := (hc ω).times ht n
    rw [e1 p hp, e2 q hq]
    exact ⟨rfl, by norm_cast⟩
  · rw [h.settled_unique hlt hs]
    exact (h.wait_limit_law x).2

end

/-- Arrivals every 2 and services of 1: nobody waits, and this settles. Services of 3 after a wait of 1: it does not.
`mm_settled` has a law with waiting. -/
example : Settled (Measure.dirac 2) (Measure.dirac 1) (Measure.dirac 0) ∧
    ¬ Settled (Measure.dirac 2) (Measure.dirac 3) (Measure.dirac 1) := by
  have hm : Measurable fun p : ℝ × ℝ × ℝ => max 0 (p.1 + p.2.1 - p.2.2) := by fun_prop
  refine ⟨?_, fun h => ?_⟩
  · rw [Settled, Measure.dirac_prod_dirac, Measure.dirac_prod_dirac, Measure.map_dirac' hm]
    norm_num
  · rw [Settled, Measure.dirac_prod_dirac, Measure.dirac_prod_dirac, Measure.map_dirac' hm] at h
    have := congrArg (fun μ => μ {1}) h
    norm_num at this

end Verif.QueueSpec
