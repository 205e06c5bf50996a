import Verif.Props.QueueMean
import Mathlib.Analysis.Convex.SpecificFunctions.Basic
import Mathlib.MeasureTheory.Integral.Layercake

/-! # C144: long waiting times at a queue with one server -/

set_option linter.unusedSectionVars false

namespace Verif.QueueSpec

open Filter Topology MeasureTheory ProbabilityTheory

section
variable {Ω : Type*} [MeasurableSpace Ω] {P : Measure Ω} [IsProbabilityMeasure P] {A S : ℕ → Ω → ℝ}

theorem sum_tail {X Y : Ω → ℝ} (hX : Measurable X) (hY : Measurable Y) (hi : X ⟂ᵢ[P] Y) (x : ℝ) :
    P {ω | x < X ω + Y ω} = ∫⁻ y, P {ω | x - y < X ω} ∂P.map Y := by
  have hm : MeasurableSet {p : ℝ × ℝ | x < p.1 + p.2} := measurableSet_lt measurable_const (by fun_prop)
  have h1 : P {ω | x < X ω + Y ω} = P.map (fun ω => (X ω, Y ω)) {p : ℝ × ℝ | x < p.1 + p.2} := by
    rw [Measure.map_apply (hX.prodMk hY) hm]
    rfl
  have := Measure.isProbabilityMeasure_map (μ := P) hX.aemeasurable
  have := Measure.isProbabilityMeasure_map (μ := P) hY.aemeasurable
  rw [h1, (indepFun_iff_map_prod_eq_prod_map_map hX.aemeasurable hY.aemeasurable).mp hi,
    Measure.prod_apply_symm hm]
  refine lintegral_congr fun y => ?_
  rw [Measure.map_apply hX (measurable_prodMk_right hm)]
  congr 1
  ext ω
  simp [sub_lt_iff_lt_add]

theorem RenewalInput.step_law_zero (h : RenewalInput P A S) : P.map (fun ω => S 0 ω - A 0 ω) = stepLaw P A S := by
  have hm : Measurable fun p : ℝ × ℝ => p.1 - p.2 := by fun_prop
  have hA : Measurable (A 0) := h.meas (.inl 0)
  have hS : Measurable (S 0) := h.meas (.inr 0)
  have h1 : S 0 ⟂ᵢ[P] A 0 := h.indep.indepFun (i := .inr 0) (j := .inl 0) (by simp)
  rw [stepLaw, ← (indepFun_iff_map_prod_eq_prod_map_map hS.aemeasurable hA.aemeasurable).mp h1,
    Measure.map_map hm (hS.prodMk hA)]
  rfl

theorem RenewalInput.tail (h : RenewalInput P A S) {θ : ℝ} (hθ : 0 ≤ θ)
    (hm : ∫⁻ ω, ENNReal.ofReal (Real.exp (θ * (S 0 ω - A 0 ω))) ∂P ≤ 1) (n : ℕ) (x : ℝ) :
    P {ω | x < wait (A · ω) (S · ω) n} ≤ ENNReal.ofReal (Real.exp (-(θ * x))) := by
  have hA : ∀ i, Measurable (A i) := fun i => h.meas (.inl i)
  have hS : ∀ i, Measurable (S i) := fun i => h.meas (.inr i)
  have he : Measurable fun y : ℝ => ENNReal.ofReal (Real.exp (θ * y)) := by fun_prop
  have hm' : ∫⁻ y, ENNReal.ofReal (Real.exp (θ * y)) ∂stepLaw P A S ≤ 1 := by
    rw [← h.step_law_zero, lintegral_map (g := fun ω => S 0 ω - A 0 ω) he ((hS 0).sub (hA 0))]
    exact hm
  have hneg : ∀ x < 0, ∀ n, P {ω | x < wait (A · ω) (S · ω) n} ≤ ENNReal.ofReal (Real.exp (-(θ * x))) := fun x hx n =>
    prob_le_one.trans (by
      rw [ENNReal.one_le_ofReal]
      exact Real.one_le_exp (by nlinarith))
  induction n generalizing x with
  | zero =>
    rcases lt_or_ge x 0 with hx | hx
    · exact hneg x hx 0
    · have : {ω | x < wait (A · ω) (S · ω) 0} = ∅ := by
        ext ω
        simpa [wait] using hx
      rw [this, measure_empty]
      exact zero_le
  | succ n ih =>
    rcases lt_or_ge x 0 with hx | hx
    · exact hneg x hx _
    have hind : (fun ω => wait (A · ω) (S · ω) n) ⟂ᵢ[P] fun ω => S n ω - A (n + 1) ω := by
      have := (h.waitFrom_indep 0 n).comp measurable_id (by fun_prop : Measurable fun p : ℝ × ℝ => p.1 - p.2)
      simpa only [Function.comp_def, waitFrom_zero, id] using this
    have e : {ω | x < wait (A · ω) (S · ω) (n + 1)} = {ω | x < wait (A · ω) (S · ω) n + (S n ω - A (n + 1) ω)} := by
      ext ω
      simp only [wait, Set.mem_ofPred_eq, lt_max_iff, not_lt.mpr hx, false_or, add_sub_assoc]
    rw [e, sum_tail (Y := fun ω => S n ω - A (n + 1) ω) (h.wait_meas n) ((hS n).sub (hA _)) hind, h.step_law n]
    calc ∫⁻ y, P {ω | x - y < wait (A · ω) (S · ω) n} ∂stepLaw P A S
        ≤ ∫⁻ y, ENNReal.ofReal (Real.exp (-(θ * x))) * ENNReal.ofReal (Real.exp (θ * y)) ∂stepLaw P A S := by
          refine lintegral_mono fun y => (ih (x - y)).trans (le_of_eq ?_)
          rw [← ENNReal.ofReal_mul (Real.exp_pos _).le, ← Real.exp_add]
          congr 2
          ring
      _ = ENNReal.ofReal (Real.exp (-(θ * x))) * ∫⁻ y, ENNReal.ofReal (Real.exp (θ * y)) ∂stepLaw P A S :=
          lintegral_const_mul _ he
      _ ≤ ENNReal.ofReal (Real.exp (-(θ * x))) * 1 := by gcongr
      _ = _ := mul_one _

theorem RenewalInput.tail_mean (h : RenewalInput P A S) {θ : ℝ} (hθ : 0 < θ)
    (hm : ∫⁻ ω, ENNReal.ofReal (Real.exp (θ * (S 0 ω - A 0 ω))) ∂P ≤ 1) (n : ℕ) :
    ∫⁻ ω, ENNReal.ofReal (wait (A · ω) (S · ω) n) ∂P ≤ ENNReal.ofReal (1 / θ) := by
  rw [lintegral_eq_lintegral_meas_lt P (Eventually.of_forall fun ω => wait_nonneg _ _ _) (h.wait_meas n).aemeasurable]
  refine (lintegral_mono fun x => h.tail hθ.le hm n x).trans (le_of_eq ?_)
  have hd : ∀ x, HasDerivAt (fun x => -(1 / θ) * Real.exp (-(θ * x))) (Real.exp (-(θ * x))) x := fun x => by
    have := exp_deriv (-(1 / θ)) θ x
    rwa [show -(-(1 / θ) * θ * Real.exp (-(θ * x))) = Real.exp (-(θ * x)) by field_simp] at this
  rw [lintegral_tail hd (fun x _ => (Real.exp_pos _).le) (exp_tail hθ _)]
  simp

/-- If services are shorter in the mean and have exponential moments, some rate is small enough. -/
theorem RenewalInput.rate_exists (h : RenewalInput P A S) (hA0 : ∀ ω, 0 ≤ A 0 ω)
    (hlt : ∫ ω, S 0 ω ∂P < ∫ ω, A 0 ω ∂P) {r : ℝ} (hr : 0 < r) (hi : Integrable (fun ω => Real.exp (r * S 0 ω)) P) :
    ∃ θ, 0 < θ ∧ θ ≤ r ∧ ∫⁻ ω, ENNReal.ofReal (Real.exp (θ * (S 0 ω - A 0 ω))) ∂P ≤ 1 := by
  have hA : Measurable (A 0) := h.meas (.inl 0)
  have hS : Measurable (S 0) := h.meas (.inr 0)
  set X : Ω → ℝ := fun ω => S 0 ω - A 0 ω with hX
  have mX : Measurable X := hS.sub hA
  have iX : Integrable X P := h.svc_int.sub h.arr_int
  have iE : Integrable (fun ω => Real.exp (r * X ω)) P := by
    refine hi.mono' (by fun_prop) (Eventually.of_forall fun ω => ?_)
    rw [Real.norm_of_nonneg (Real.exp_pos _).le, Real.exp_le_exp]
    have := hA0 ω
    simp only [hX]
    nlinarith
  let t : ℕ → ℝ := fun k => r / (k + 1)
  have t0 : ∀ k, 0 < t k := fun k => by positivity
  have t1 : ∀ k, t k ≤ r := fun k => div_le_self hr.le (by linarith [(Nat.cast_nonneg k : (0 : ℝ) ≤ k)])
  have tl : Tendsto t atTop (𝓝[≠] 0) := by
    refine tendsto_nhdsWithin_iff.mpr ⟨?_, Eventually.of_forall fun k => (t0 k).ne'⟩
    have := tendsto_one_div_add_atTop_nhds_zero_nat (𝕜 := ℝ) |>.const_mul r
    simpa [t, div_eq_mul_inv] using this
  -- the slopes lie between two integrable functions
  have conv : ∀ k ω, Real.exp (t k * X ω) ≤ 1 - t k / r + t k / r * Real.exp (r * X ω) := by
    intro k ω
    have h0 : 0 ≤ t k / r := div_nonneg (t0 k).le hr.le
    have h1 : 0 ≤ 1 - t k / r := sub_nonneg.mpr ((div_le_one hr).mpr (t1 k))
    have := convexOn_exp.2 (Set.mem_univ 0) (Set.mem_univ (r * X ω)) h1 h0 (by ring)
    simp only [smul_eq_mul, mul_zero, zero_add, Real.exp_zero, mul_one] at this
    rwa [show t k / r * (r * X ω) = t k * X ω by field_simp] at this
  have iT : ∀ k, Integrable (fun ω => Real.exp (t k * X ω)) P := fun k =>
    ((integrable_const (1 - t k / r)).add (iE.const_mul (t k / r))).mono' (by fun_prop) (Eventually.of_forall fun ω => by
      rw [Real.norm_of_nonneg (Real.exp_pos _).le]
      exact conv k ω)
  have lim : Tendsto (fun k => ∫ ω, (Real.exp (t k * X ω) - 1) / t k ∂P) atTop (𝓝 (∫ ω, X ω ∂P)) := by
    refine tendsto_integral_of_dominated_convergence (fun ω => |X ω| + (Real.exp (r * X ω) + 1) / r)
      (fun k => (by fun_prop : Measurable fun ω => (Real.exp (t k * X ω) - 1) / t k).aestronglyMeasurable)
      (iX.abs.add ((iE.add (integrable_const 1)).div_const r)) (fun k => Eventually.of_forall fun ω => ?_)
      (Eventually.of_forall fun ω => ?_)
    · have e0 := Real.exp_pos (r * X ω)
      have e1 : X ω ≤ (Real.exp (t k * X ω) - 1) / t k := by
        rw [le_div_iff₀ (t0 k)]
        linarith [Real.add_one_le_exp (t k * X ω)]
      have e2 : (Real.exp (t k * X ω) - 1) / t k ≤ (Real.exp (r * X ω) - 1) / r := by
        rw [div_le_iff₀ (t0 k)]
        have := conv k ω
        have e3 : (Real.exp (r * X ω) - 1) / r * t k = t k / r * Real.exp (r * X ω) - t k / r := by ring
        linarith
      have e4 : (Real.exp (r * X ω) - 1) / r ≤ (Real.exp (r * X ω) + 1) / r := by gcongr; linarith
      have e5 : 0 ≤ (Real.exp (r * X ω) + 1) / r := by positivity
      rw [Real.norm_eq_abs, abs_le]
      constructor
      · linarith [neg_abs_le (X ω)]
      · linarith [abs_nonneg (X ω)]
    · have hd : HasDerivAt (fun s => Real.exp (s * X ω)) (X ω) 0 := by
        have := ((hasDerivAt_id' (0 : ℝ)).mul_const (X ω)).exp
        simpa using this
      have := (hasDerivAt_iff_tendsto_slope.mp hd).comp tl
      refine this.congr fun k => ?_
      simp [slope_def_field]
  have neg : ∫ ω, X ω ∂P < 0 := by
    rw [hX, integral_sub h.svc_int h.arr_int]
    linarith
  obtain ⟨k, hk⟩ := (lim.eventually_lt_const neg).exists
  refine ⟨t k, t0 k, t1 k, ?_⟩
  rw [← ofReal_integral_eq_lintegral_ofReal (iT k) (Eventually.of_forall fun ω => (Real.exp_pos _).le),
    ENNReal.ofReal_le_one]
  rw [integral_div, integral_sub (iT k) (integrable_const 1), integral_const, probReal_univ, one_smul] at hk
  have := (div_neg_iff.mp hk).resolve_left fun h => absurd h.2 (not_lt.mpr (t0 k).le)
  linarith [this.1]

/-- C144: if the mean of `exp (θ * (service - time between arrivals))` is at most 1, every agent waits longer than `x` with
probability `exp (-θ x)` or less, and in the mean for `1 / θ` or less. Such a `θ` exists if services are shorter in the mean
and the mean of `exp (r * service)` is finite for some `r > 0`. -/
theorem C144_tail (h : RenewalInput P A S) {c : Ω → QCfg (WithTop ℝ)} (hc : ∀ ω, OneServer (c ω) (A · ω) (S · ω)) :
    (∃ W : ℕ → Ω → ℝ, (∀ n, Measurable (W n)) ∧ (∀ n ω, 0 ≤ W n ω) ∧ Waits c W ∧
      ∀ θ, 0 < θ → ∫⁻ ω, ENNReal.ofReal (Real.exp (θ * (S 0 ω - A 0 ω))) ∂P ≤ 1 → ∀ n,
        (∀ x, P {ω | x < W n ω} ≤ ENNReal.ofReal (Real.exp (-(θ * x)))) ∧
        ∫⁻ ω, ENNReal.ofReal (W n ω) ∂P ≤ ENNReal.ofReal (1 / θ)) ∧
    (∫ ω, S 0 ω ∂P < ∫ ω, A 0 ω ∂P → ∀ r, 0 < r → Integrable (fun ω => Real.exp (r * S 0 ω)) P →
      ∃ θ, 0 < θ ∧ ∫⁻ ω, ENNReal.ofReal (Real.exp (θ * (S 0 ω - A 0 ω))) ∂P ≤ 1) :=
  ⟨⟨fun n ω => wait (A · ω) (S · ω) n, h.wait_meas, fun _ _ => wait_nonneg _ _ _, waits hc, fun _ hθ hm n =>
    ⟨h.tail hθ.le hm n, h.tail_mean hθ hm n⟩⟩, fun hlt r hr hi => by
    obtain ⟨θ, h1, -, h2⟩ := h.rate_exists (fun ω => (hc ω).arr_nonneg 0) hlt hr hi
    exact ⟨θ, h1, h2⟩⟩

end

/-- Arrivals every 2 and services of 0 or 3: an agent waits longer than `x` with probability `(2 / 3) ^ x` or less. -/
example : ∃ W : ℕ → (ℕ ⊕ ℕ → ℝ) → ℝ,
    Waits (fun ω : ℕ ⊕ ℕ → ℝ => givenQueue (fun i => |ω (.inl i)|) fun i => |ω (.inr i)|) W ∧
    ∀ n x, Measure.infinitePi (laws (Measure.dirac 2) coin) {ω | x < W n ω} ≤ ENNReal.ofReal ((2 / 3 : ℝ) ^ x) := by
  obtain ⟨h1, -, -, h4⟩ := C133_met (Measure.dirac 2) coin (integrable_dirac (by simp)) coin_int
  obtain ⟨⟨W, -, -, g1, g2⟩, -⟩ := C144_tail h1 h4
  have hlog : 0 < Real.log (3 / 2) := Real.log_pos (by norm_num)
  have key : ∫⁻ ω, ENNReal.ofReal (Real.exp (Real.log (3 / 2) * (|ω (.inr 0)| - |ω (.inl 0)|)))
      ∂Measure.infinitePi (laws (Measure.dirac 2) coin) ≤ 1 := by
    have law := h1.step_law_zero
    have he : Measurable fun y : ℝ => ENNReal.ofReal (Real.exp (Real.log (3 / 2) * y)) := by fun_prop
    have abs1 : Measurable fun x : ℝ => |x| := by fun_prop
    have m1 : Measurable fun ω : ℕ ⊕ ℕ → ℝ => |ω (.inr 0)| := by fun_prop
    have m2 : Measurable fun ω : ℕ ⊕ ℕ → ℝ => |ω (.inl 0)| := by fun_prop
    have ev : ∀ x, (Measure.infinitePi (laws (Measure.dirac 2) coin)).map (fun ω => |ω x|) =
        (laws (Measure.dirac 2) coin x).map (fun y => |y|) := fun x => by
      have e2 : (fun ω : ℕ ⊕ ℕ → ℝ => |ω x|) = (fun y : ℝ => |y|) ∘ fun ω => ω x := rfl
      rw [e2, ← Measure.map_map abs1 (measurable_pi_apply x)]
      exact congrArg (Measure.map _) (Measure.infinitePi_map_eval _ x)
    have e := lintegral_map (μ := Measure.infinitePi (laws (Measure.dirac 2) coin)) he (m1.sub m2)
    simp only [Pi.sub_apply] at e
    rw [← e]
    have law' : (Measure.infinitePi (laws (Measure.dirac 2) coin)).map
        (fun ω : ℕ ⊕ ℕ → ℝ => |ω (.inr 0)| - |ω (.inl 0)|) = (coin.map fun y => |y|).map fun y => y - 2 := by
      rw [law, stepLaw, ev, ev]
      simp only [laws]
      rw [Measure.map_dirac' abs1, Measure.prod_dirac, Measure.map_map (by fun_prop) (by fun_prop)]
      norm_num [Function.comp_def]
    have e3 : (fun ω : ℕ ⊕ ℕ → ℝ => |ω (.inr 0)|) - (fun ω => |ω (.inl 0)|) = fun ω => |ω (.inr 0)| - |ω (.inl 0)| := rfl
    rw [e3, law', lintegral_map he (by fun_prop), lintegral_map (by fun_prop) abs1, coin, lintegral_add_measure,
      lintegral_smul_measure, lintegral_smul_measure, lintegral_dirac' _ (by fun_prop), lintegral_dirac' _ (by fun_prop)]
    have x1 : Real.exp (Real.log (3 / 2) * (|0| - 2)) = 4 / 9 := by
      rw [← Real.rpow_def_of_pos (by norm_num)]; norm_num
    have x2 : Real.exp (Real.log (3 / 2) * (|3| - 2)) = 3 / 2 := by
      rw [← Real.rpow_def_of_pos (by norm_num)]; norm_num
    rw [x1, x2, smul_eq_mul, smul_eq_mul, ← mul_add, ← ENNReal.ofReal_add (by norm_num) (by norm_num),
      show (1 / 2 : ENNReal) = ENNReal.ofReal (1 / 2) by rw [ENNReal.ofReal_div_of_pos (by norm_num)]; simp,
      ← ENNReal.ofReal_mul (by norm_num), ENNReal.ofReal_le_one]
    norm_num
  refine ⟨W, g1, fun n x => ?_⟩
  have := (g2 _ hlog key n).1 x
  rwa [show Real.exp (-(Real.log (3 / 2) * x)) = (2 / 3 : ℝ) ^ x by
    rw [Real.rpow_def_of_pos (by norm_num), show (2 / 3 : ℝ) = (3 / 2)⁻¹ by norm_num, Real.log_inv]; ring_nf] at this

end Verif.QueueSpec
