import Verif.Props.QueueTransform

/-! # C143: the mean waiting time at a queue with one server and Poisson arrivals -/

set_option linter.unusedSectionVars false

namespace Verif.QueueSpec

open Filter Topology MeasureTheory ProbabilityTheory

theorem exp_second {x : ℝ} (hx : 0 ≤ x) : 0 ≤ Real.exp (-x) - 1 + x ∧ Real.exp (-x) - 1 + x ≤ x ^ 2 / 2 := by
  constructor
  · have := Real.add_one_le_exp (-x)
    linarith
  · have h1 := Real.quadratic_le_exp_of_nonneg hx
    have h2 : Real.exp x * Real.exp (-x) = 1 := by rw [← Real.exp_add, add_neg_cancel, Real.exp_zero]
    have h3 := Real.exp_pos (-x)
    have h4 : (1 + x + x ^ 2 / 2) * Real.exp (-x) ≤ 1 := by nlinarith
    have h5 : 0 < 1 + x + x ^ 2 / 2 := by positivity
    have h6 : 1 ≤ (1 + x + x ^ 2 / 2) * (1 - x + x ^ 2 / 2) := by nlinarith [sq_nonneg (x ^ 2)]
    have : Real.exp (-x) ≤ 1 - x + x ^ 2 / 2 := le_of_mul_le_mul_left (h4.trans h6) h5
    linarith

theorem second_limit {s : ℝ} (hs : 0 ≤ s) :
    Tendsto (fun m : ℕ => (Real.exp (-(1 / ((m : ℝ) + 1) * s)) - 1 + 1 / ((m : ℝ) + 1) * s) / (1 / ((m : ℝ) + 1)) ^ 2) atTop
      (𝓝 (s ^ 2 / 2)) := by
  have ht : Tendsto (fun m : ℕ => 1 / ((m : ℝ) + 1)) atTop (𝓝 0) := tendsto_one_div_add_atTop_nhds_zero_nat
  have hz : Tendsto (fun m : ℕ => 1 / ((m : ℝ) + 1) * s) atTop (𝓝 0) := by simpa using ht.mul_const s
  have hb : Tendsto (fun m : ℕ => 1 / ((m : ℝ) + 1) * (s ^ 3 * (4 / 18))) atTop (𝓝 0) := by
    simpa using ht.mul_const (s ^ 3 * (4 / 18))
  rw [tendsto_iff_norm_sub_tendsto_zero]
  refine squeeze_zero' (Eventually.of_forall fun m => norm_nonneg _) ?_ hb
  filter_upwards [hz.eventually_le_const one_pos] with m hm
  have hp : 0 < 1 / ((m : ℝ) + 1) := by positivity
  generalize 1 / ((m : ℝ) + 1) = t at hm hp
  have h1 := Real.exp_bound (x := -(t * s)) (by rw [abs_neg, abs_of_nonneg (by positivity)]; exact hm) (n := 3) (by norm_num)
  rw [abs_neg, abs_of_nonneg (show 0 ≤ t * s by positivity)] at h1
  simp only [Finset.sum_range_succ, Finset.range_zero, Finset.sum_empty, Nat.factorial] at h1
  norm_num at h1
  have e : (Real.exp (-(t * s)) - 1 + t * s) / t ^ 2 - s ^ 2 / 2 =
      (Real.exp (-(t * s)) - (1 + -(t * s) + (t * s) ^ 2 / 2)) / t ^ 2 := by
    field_simp
    ring
  rw [Real.norm_eq_abs, e, abs_div, abs_of_pos (show 0 < t ^ 2 by positivity), div_le_iff₀ (by positivity)]
  refine h1.trans (le_of_eq ?_)
  ring

/-- Means of `(1 - exp (-t * w)) / t` tend to that of `w` as `t` tends to 0. -/
theorem slope_lintegral {Ω : Type*} [MeasurableSpace Ω] {P : Measure Ω} {w : Ω → ℝ} (hw : Measurable w)
    (h0 : ∀ᵐ ω ∂P, 0 ≤ w ω) :
    Tendsto (fun m : ℕ => ∫⁻ ω, ENNReal.ofReal ((1 - Real.exp (-(1 / ((m : ℝ) + 1) * w ω))) / (1 / ((m : ℝ) + 1))) ∂P) atTop
      (𝓝 (∫⁻ ω, ENNReal.ofReal (w ω) ∂P)) := by
  have bd : ∀ (m : ℕ) (s : ℝ), 0 ≤ s → s * Real.exp (-(1 / ((m : ℝ) + 1) * s)) ≤
      (1 - Real.exp (-(1 / ((m : ℝ) + 1) * s))) / (1 / ((m : ℝ) + 1)) ∧
      (1 - Real.exp (-(1 / ((m : ℝ) + 1) * s))) / (1 / ((m : ℝ) + 1)) ≤ s := by
    intro m s hs
    have ht : 0 < 1 / ((m : ℝ) + 1) := by positivity
    rw [le_div_iff₀ ht, div_le_iff₀ ht]
    constructor
    · have h1 := Real.add_one_le_exp (1 / ((m : ℝ) + 1) * s)
      have h2 := Real.exp_pos (-(1 / ((m : ℝ) + 1) * s))
      have h3 : Real.exp (1 / ((m : ℝ) + 1) * s) * Real.exp (-(1 / ((m : ℝ) + 1) * s)) = 1 := by
        rw [← Real.exp_add, add_neg_cancel, Real.exp_zero]
      nlinarith
    · have h1 := Real.add_one_le_exp (-(1 / ((m : ℝ) + 1) * s))
      linarith
  have lim : ∀ s : ℝ, 0 ≤ s → Tendsto (fun m : ℕ => (1 - Real.exp (-(1 / ((m : ℝ) + 1) * s))) / (1 / ((m : ℝ) + 1))) atTop (𝓝 s) := by
    intro s hs
    have h2 := ((tendsto_one_div_add_atTop_nhds_zero_nat (𝕜 := ℝ)).mul_const s).neg
    rw [zero_mul, neg_zero] at h2
    have h3 := ((Real.continuous_exp.tendsto 0).comp h2).const_mul s
    rw [Real.exp_zero, mul_one] at h3
    exact tendsto_of_tendsto_of_tendsto_of_le_of_le h3 tendsto_const_nhds (fun m => (bd m _ hs).1) fun m => (bd m _ hs).2
  have hm : ∀ m : ℕ, Measurable fun ω => ENNReal.ofReal ((1 - Real.exp (-(1 / ((m : ℝ) + 1) * w ω))) / (1 / ((m : ℝ) + 1))) := by
    intro m
    have he : Measurable fun x : ℝ => (1 - Real.exp (-(1 / ((m : ℝ) + 1) * x))) / (1 / ((m : ℝ) + 1)) := by fun_prop
    exact (he.comp hw).ennreal_ofReal
  refine tendsto_of_le_liminf_of_limsup_le ?_ ?_
  · refine le_trans (le_of_eq (lintegral_congr_ae ?_)) (lintegral_liminf_le hm)
    filter_upwards [h0] with ω hω
    exact ((ENNReal.continuous_ofReal.tendsto _).comp (lim _ hω)).liminf_eq.symm
  · refine limsup_le_of_le (h := Eventually.of_forall fun m => lintegral_mono_ae ?_)
    filter_upwards [h0] with ω hω
    exact ENNReal.ofReal_le_ofReal (bd m _ hω).2

section
variable {Ω : Type*} [MeasurableSpace Ω] {P : Measure Ω} [IsProbabilityMeasure P] {A S : ℕ → Ω → ℝ}

/-- The mean waiting time of the `n`-th agent, in the long run. -/
theorem RenewalInput.mean_wait (h : RenewalInput P A S) (hS0 : ∀ i ω, 0 ≤ S i ω) {lam : ℝ} (h0 : 0 < lam)
    (hA : P.map (A 0) = expMeasure lam) (hlt : lam * ∫ ω, S 0 ω ∂P < 1) (hS2 : MemLp (S 0) 2 P) :
    Tendsto (fun n => ∫⁻ ω, ENNReal.ofReal (wait (A · ω) (S · ω) n) ∂P) atTop
      (𝓝 (ENNReal.ofReal (lam * (∫ ω, S 0 ω ^ 2 ∂P) / (2 * (1 - lam * ∫ ω, S 0 ω ∂P))))) := by
  have hSm : Measurable (S 0) := h.meas (.inr 0)
  have mA : ∫ ω, A 0 ω ∂P = 1 / lam := by
    rw [← exp_mean h0, ← hA, integral_map (φ := A 0) (f := fun x => x) (h.meas (.inl 0)).aemeasurable aestronglyMeasurable_id]
  have hm : ∫ ω, S 0 ω ∂P < ∫ ω, A 0 ω ∂P := by
    rw [mA, lt_div_iff₀ h0]
    linarith
  have htop0 : ∀ᵐ ω ∂P, 0 ≤ top A S ω := by
    filter_upwards [h.bounded hm] with ω hω
    exact (show (0 : ℝ) ≤ excess (A · ω) (S · ω) 0 by simp [excess]).trans (le_ciSup hω 0)
  -- the limit of the means is the mean of the largest excess
  have e : ∀ n, ∫⁻ ω, ENNReal.ofReal (wait (A · ω) (S · ω) n) ∂P = ∫⁻ ω, ENNReal.ofReal (peak (A · ω) (S · ω) n) ∂P :=
    fun n => ((h.wait_peak n).comp ENNReal.measurable_ofReal).lintegral_eq
  have hlim : Tendsto (fun n => ∫⁻ ω, ENNReal.ofReal (wait (A · ω) (S · ω) n) ∂P) atTop
      (𝓝 (∫⁻ ω, ENNReal.ofReal (top A S ω) ∂P)) := by
    simp only [e]
    refine lintegral_tendsto_of_tendsto_of_monotone (fun n => (h.peak_meas n).ennreal_ofReal.aemeasurable)
      (Eventually.of_forall fun ω m n hmn => ENNReal.ofReal_le_ofReal (peak_mono _ _ hmn)) ?_
    filter_upwards [h.bounded hm] with ω hω
    exact (ENNReal.continuous_ofReal.tendsto _).comp (peak_tendsto hω)
  suffices hmean : ∫⁻ ω, ENNReal.ofReal (top A S ω) ∂P =
      ENNReal.ofReal (lam * (∫ ω, S 0 ω ^ 2 ∂P) / (2 * (1 - lam * ∫ ω, S 0 ω ∂P))) by
    rw [← hmean]
    exact hlim
  obtain ⟨eq, -⟩ := h.transform hS0 h0 hA hm
  have l1 := slope_lintegral h.top_meas htop0
  refine tendsto_nhds_unique l1 ?_
  have l2 := h.service_slope hS0
  have iS : Integrable (S 0) P := h.svc_int
  have l3 : Tendsto (fun m : ℕ => (∫ ω, Real.exp (-(1 / ((m : ℝ) + 1) * S 0 ω)) ∂P - 1 + 1 / ((m : ℝ) + 1) * ∫ ω, S 0 ω ∂P) /
      (1 / ((m : ℝ) + 1)) ^ 2) atTop (𝓝 ((∫ ω, S 0 ω ^ 2 ∂P) / 2)) := by
    have e : ∀ m : ℕ, (∫ ω, Real.exp (-(1 / ((m : ℝ) + 1) * S 0 ω)) ∂P - 1 + 1 / ((m : ℝ) + 1) * ∫ ω, S 0 ω ∂P) /
        (1 / ((m : ℝ) + 1)) ^ 2 =
        ∫ ω, (Real.exp (-(1 / ((m : ℝ) + 1) * S 0 ω)) - 1 + 1 / ((m : ℝ) + 1) * S 0 ω) / (1 / ((m : ℝ) + 1)) ^ 2 ∂P := by
      intro m
      have i1 : Integrable (fun ω => Real.exp (-(1 / ((m : ℝ) + 1) * S 0 ω))) P := exp_bounded hSm (hS0 0) (by positivity)
      have i2 : Integrable (fun ω => Real.exp (-(1 / ((m : ℝ) + 1) * S 0 ω)) - 1) P := i1.sub (integrable_const 1)
      rw [integral_div, integral_add i2 (iS.const_mul _), integral_sub i1 (integrable_const 1), integral_const_mul]
      simp
    simp_rw [e]
    rw [← integral_div]
    refine tendsto_integral_of_dominated_convergence (fun ω => S 0 ω ^ 2 / 2) (fun m => ?_) (hS2.integrable_sq.div_const 2)
      (fun m => Eventually.of_forall fun ω => ?_) (Eventually.of_forall fun ω => second_limit (hS0 0 ω))
    · have he : Measurable fun x : ℝ => (Real.exp (-(1 / ((m : ℝ) + 1) * x)) - 1 + 1 / ((m : ℝ) + 1) * x) /
          (1 / ((m : ℝ) + 1)) ^ 2 := by fun_prop
      exact (he.comp hSm).aestronglyMeasurable
    · have ht : 0 < 1 / ((m : ℝ) + 1) := by positivity
      obtain ⟨b1, b2⟩ := exp_second (mul_nonneg ht.le (hS0 0 ω))
      rw [Real.norm_eq_abs, abs_of_nonneg (div_nonneg b1 (by positivity)), div_le_iff₀ (by positivity)]
      refine b2.trans (le_of_eq ?_)
      ring
  have hrho : 0 < 1 - lam * ∫ ω, S 0 ω ∂P := by linarith
  have l4 := (l3.const_mul lam).div ((l2.const_mul lam).const_sub 1) hrho.ne'
  have l5 := (ENNReal.continuous_ofReal.tendsto _).comp l4
  have e1 : lam * ((∫ ω, S 0 ω ^ 2 ∂P) / 2) / (1 - lam * ∫ ω, S 0 ω ∂P) =
      lam * (∫ ω, S 0 ω ^ 2 ∂P) / (2 * (1 - lam * ∫ ω, S 0 ω ∂P)) := by
    field_simp
  rw [e1] at l5
  refine l5.congr fun m => ?_
  have ht : 0 < 1 / ((m : ℝ) + 1) := by positivity
  have i1 : Integrable (fun ω => Real.exp (-(1 / ((m : ℝ) + 1) * top A S ω))) P := by
    have he : Measurable fun x : ℝ => Real.exp (-(1 / ((m : ℝ) + 1) * x)) := by fun_prop
    refine Integrable.of_bound (C := 1) (he.comp h.top_meas).aestronglyMeasurable ?_
    filter_upwards [htop0] with ω hω
    rw [Real.norm_eq_abs, Real.abs_exp]
    exact Real.exp_le_one_iff.mpr (by have := mul_nonneg ht.le hω; linarith)
  have i2 : Integrable (fun ω => (1 - Real.exp (-(1 / ((m : ℝ) + 1) * top A S ω))) / (1 / ((m : ℝ) + 1))) P :=
    ((integrable_const 1).sub i1).div_const _
  rw [← ofReal_integral_eq_lintegral_ofReal i2 (by
    filter_upwards [htop0] with ω hω
    refine div_nonneg (sub_nonneg.mpr (Real.exp_le_one_iff.mpr ?_)) ht.le
    have := mul_nonneg ht.le hω
    linarith), integral_div, integral_sub (integrable_const 1) i1, integral_const]
  simp only [Function.comp, probReal_univ, one_smul]
  congr 1
  have key := eq _ ht.le
  have gen : ∀ t b f k : ℝ, 0 < t → 0 < k → 1 - lam * ((1 - b) / t) ≠ 0 → k = 1 - lam * (∫ ω, S 0 ω ∂P) →
      f * (t - lam * (1 - b)) = t * k →
      lam * ((b - 1 + t * ∫ ω, S 0 ω ∂P) / t ^ 2) / (1 - lam * ((1 - b) / t)) = (1 - f) / t := by
    intro t b f k ht hk hd he hf
    rw [div_eq_iff hd]
    subst he
    field_simp
    linarith
  have hd : 1 - lam * ((1 - ∫ ω, Real.exp (-(1 / ((m : ℝ) + 1) * S 0 ω)) ∂P) / (1 / ((m : ℝ) + 1))) ≠ 0 := by
    intro hz
    have h1 : 1 / ((m : ℝ) + 1) - lam * (1 - ∫ ω, Real.exp (-(1 / ((m : ℝ) + 1) * S 0 ω)) ∂P) = 0 := by
      have : 1 / ((m : ℝ) + 1) - lam * (1 - ∫ ω, Real.exp (-(1 / ((m : ℝ) + 1) * S 0 ω)) ∂P) = (1 / ((m : ℝ) + 1)) *
          (1 - lam * ((1 - ∫ ω, Real.exp (-(1 / ((m : ℝ) + 1) * S 0 ω)) ∂P) / (1 / ((m : ℝ) + 1)))) := by
        field_simp
      rw [this, hz, mul_zero]
    rw [h1, mul_zero] at key
    exact (mul_pos ht hrho).ne key
  exact gen _ _ _ _ ht hrho hd rfl key

/-- C143: a queue as in C142 whose services have a second moment: the mean waiting time of the `n`-th agent tends to
`lam * E (service ^ 2) / (2 * (1 - lam * σ))`. -/
theorem C143_mean (h : RenewalInput P A S) {lam : ℝ} (h0 : 0 < lam) (hA : P.map (A 0) = expMeasure lam)
    (hlt : lam * ∫ ω, S 0 ω ∂P < 1) (hS2 : MemLp (S 0) 2 P) {c : Ω → QCfg (WithTop ℝ)}
    (hc : ∀ ω, OneServer (c ω) (A · ω) (S · ω)) :
    ∃ W : ℕ → Ω → ℝ, (∀ n, Measurable (W n)) ∧ (∀ n ω, 0 ≤ W n ω) ∧ Waits c W ∧
      Tendsto (fun n => ∫⁻ ω, ENNReal.ofReal (W n ω) ∂P) atTop
        (𝓝 (ENNReal.ofReal (lam * (∫ ω, S 0 ω ^ 2 ∂P) / (2 * (1 - lam * ∫ ω, S 0 ω ∂P))))) :=
  ⟨fun n ω => wait (A · ω) (S · ω) n, h.wait_meas, fun _ _ => wait_nonneg _ _ _, waits hc,
    h.mean_wait (fun i ω => (hc ω).svc_nonneg i) h0 hA hlt hS2⟩

end

/-- The facts on exponential times of mean 2 between arrivals and services of 0 or 3. -/
theorem coin_facts : (Measure.infinitePi (laws (expMeasure (1 / 2)) coin)).map (fun ω => |ω (.inl 0)|) = expMeasure (1 / 2) ∧
    MemLp (fun ω : ℕ ⊕ ℕ → ℝ => |ω (.inr 0)|) 2 (Measure.infinitePi (laws (expMeasure (1 / 2)) coin)) ∧
    ∫ ω, |ω (.inr 0)| ^ 2 ∂Measure.infinitePi (laws (expMeasure (1 / 2)) coin) = 9 / 2 := by
  have hp : (0 : ℝ) < 1 / 2 := by norm_num
  have := isProbabilityMeasure_expMeasure hp
  have abs1 : Measurable fun x : ℝ => |x| := by fun_prop
  have ev : ∀ x, (Measure.infinitePi (laws (expMeasure (1 / 2)) coin)).map (fun ω => ω x) = laws (expMeasure (1 / 2)) coin x :=
    fun x => Measure.infinitePi_map_eval _ x
  have law : (Measure.infinitePi (laws (expMeasure (1 / 2)) coin)).map (fun ω => |ω (.inl 0)|) = expMeasure (1 / 2) := by
    have e2 : (fun ω : ℕ ⊕ ℕ → ℝ => |ω (.inl 0)|) = (fun y : ℝ => |y|) ∘ fun ω => ω (.inl 0) := rfl
    have e3 : (Measure.infinitePi (laws (expMeasure (1 / 2)) coin)).map (fun ω => ω (.inl 0)) = expMeasure (1 / 2) :=
      ev (.inl 0)
    rw [e2, ← Measure.map_map abs1 (measurable_pi_apply _), e3, Measure.map_congr (g := id)]
    · exact Measure.map_id
    · filter_upwards [exp_nonneg hp] with y hy
      exact abs_of_nonneg hy
  have bd : ∀ᵐ x ∂coin, |x| ∈ Set.Icc (0 : ℝ) 3 := by
    rw [coin, ae_add_measure_iff, Measure.ae_ennreal_smul_measure_iff (by simp), Measure.ae_ennreal_smul_measure_iff (by simp)]
    constructor <;> rw [ae_dirac_iff (measurableSet_Icc.preimage abs1)] <;> norm_num
  have ev2 : (Measure.infinitePi (laws (expMeasure (1 / 2)) coin)).map (fun ω => ω (.inr 0)) = coin := ev (.inr 0)
  have l2 : MemLp (fun ω : ℕ ⊕ ℕ → ℝ => |ω (.inr 0)|) 2 (Measure.infinitePi (laws (expMeasure (1 / 2)) coin)) := by
    have l2 : MemLp (fun x : ℝ => |x|) 2 coin := memLp_of_bounded bd abs1.aestronglyMeasurable 2
    rw [← ev2] at l2
    exact (memLp_map_measure_iff abs1.aestronglyMeasurable (measurable_pi_apply _).aemeasurable).mp l2
  have m2 : ∫ ω, |ω (.inr 0)| ^ 2 ∂Measure.infinitePi (laws (expMeasure (1 / 2)) coin) = 9 / 2 := by
    have e : ∫ x, |x| ^ 2 ∂coin = 9 / 2 := by
      rw [coin, integral_add_measure, integral_smul_measure, integral_smul_measure]
      · simp
        norm_num
      all_goals exact (integrable_dirac (by simp)).smul_measure (by simp)
    rw [← e, ← ev2, integral_map (measurable_pi_apply _).aemeasurable (by fun_prop), ev2]
  exact ⟨law, l2, m2⟩

/-- Exponential times of mean 2 between arrivals and services of 0 or 3: in the long run agents wait for 9/2 in the mean. -/
example : ∃ W : ℕ → (ℕ ⊕ ℕ → ℝ) → ℝ,
    Waits (fun ω : ℕ ⊕ ℕ → ℝ => givenQueue (fun i => |ω (.inl i)|) fun i => |ω (.inr i)|) W ∧
    Tendsto (fun n => ∫⁻ ω, ENNReal.ofReal (W n ω) ∂Measure.infinitePi (laws (expMeasure (1 / 2)) coin)) atTop
      (𝓝 (ENNReal.ofReal (9 / 2))) := by
  have hp : (0 : ℝ) < 1 / 2 := by norm_num
  have := isProbabilityMeasure_expMeasure hp
  obtain ⟨h1, -, h3, h4⟩ := C133_met (expMeasure (1 / 2)) coin (exp_int hp) coin_int
  rw [coin_mean] at h3
  obtain ⟨law, l2, m2⟩ := coin_facts
  obtain ⟨W, -, -, g1, g2⟩ := C143_mean h1 hp law (by rw [h3]; norm_num) l2 h4
  refine ⟨W, g1, ?_⟩
  rw [h3, m2] at g2
  norm_num at g2 ⊢
  exact g2

end Verif.QueueSpec
