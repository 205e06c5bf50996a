import Mathlib.MeasureTheory.Integral.IntervalIntegral.AbsolutelyContinuousFun
import Mathlib.MeasureTheory.Integral.IntervalIntegral.LebesgueDifferentiationThm
import Mathlib.Analysis.SpecialFunctions.ExpDeriv
import Mathlib.Analysis.SpecialFunctions.Integrals.Basic
import Mathlib.Topology.Algebra.Order.Floor

/-! # An integral equation solved by Poisson probabilities

No part of the program: the analysis used for C95. -/

namespace Verif.Thin

open MeasureTheory Set Real

/-- The Poisson probability of `k` for mean `x`. -/
noncomputable def pois (k : ℕ) (x : ℝ) : ℝ := exp (-x) * x ^ k / k.factorial

/-- The function before the `k`-th of a sequence, zero before the first. -/
def prevOf (q : ℕ → ℝ → ℝ) : ℕ → ℝ → ℝ
  | 0, _ => 0
  | k + 1, x => q k x

/-- The Poisson probability of `k - 1`. -/
noncomputable def poisPred : ℕ → ℝ → ℝ := prevOf pois

theorem pois_zero (k : ℕ) : pois k 0 = if k = 0 then 1 else 0 := by
  cases k with
  | zero => simp [pois]
  | succ k => simp [pois]

theorem pois_nonneg (k : ℕ) {x : ℝ} (hx : 0 ≤ x) : 0 ≤ pois k x := by unfold pois; positivity

theorem pois_hasDerivAt (k : ℕ) (x : ℝ) : HasDerivAt (pois k) (poisPred k x - pois k x) x := by
  cases k with
  | zero =>
    have h : HasDerivAt (fun y : ℝ => exp (-y)) (exp (-x) * -1) x := (hasDerivAt_neg x).exp
    have he : pois 0 = fun y : ℝ => exp (-y) := by funext y; simp [pois]
    rw [he]
    convert h using 1
    simp [poisPred, prevOf]
  | succ k =>
    have h1 : HasDerivAt (fun y : ℝ => exp (-y)) (exp (-x) * -1) x := (hasDerivAt_neg x).exp
    have h2 := ((h1.mul (hasDerivAt_pow (k + 1) x)).div_const ((k + 1).factorial : ℝ))
    have hk : ((k + 1).factorial : ℝ) = (k + 1) * k.factorial := by rw [Nat.factorial_succ]; push_cast; ring
    refine HasDerivAt.congr_deriv h2 ?_
    simp only [poisPred, prevOf, pois, hk, Nat.add_sub_cancel]
    have : (k.factorial : ℝ) ≠ 0 := by positivity
    have : (k + 1 : ℝ) ≠ 0 := by positivity
    field_simp
    push_cast
    ring

theorem pois_contDiff (k : ℕ) : ContDiff ℝ 1 (pois k) := by
  unfold pois
  fun_prop

theorem pois_le_one (k : ℕ) {x : ℝ} (hx : 0 ≤ x) : pois k x ≤ 1 := by
  unfold pois
  rw [mul_div_assoc, exp_neg, inv_mul_le_one₀ (exp_pos x)]
  exact pow_div_factorial_le_exp x hx k

section

variable {lam : ℝ → ℝ} {r : ℝ}

/-- A measurable function with values in `[0, r]`. -/
structure Rate (lam : ℝ → ℝ) (r : ℝ) : Prop where
  pos : 0 < r
  meas : Measurable lam
  nonneg : ∀ x, 0 ≤ lam x
  le : ∀ x, lam x ≤ r

theorem Rate.integrable (h : Rate lam r) (a b : ℝ) : IntervalIntegrable lam volume a b := by
  refine (intervalIntegrable_const (c := r)).mono_fun h.meas.aestronglyMeasurable (Filter.Eventually.of_forall fun x => ?_)
  show ‖lam x‖ ≤ ‖r‖
  rw [norm_eq_abs, norm_eq_abs, abs_of_nonneg (h.nonneg x), abs_of_pos h.pos]
  exact h.le x

/-- The mean number of points between `t` and `s`. -/
noncomputable def mean (lam : ℝ → ℝ) (t s : ℝ) : ℝ := ∫ u in t..s, lam u

theorem Rate.mean_nonneg (h : Rate lam r) {t s : ℝ} (hts : t ≤ s) : 0 ≤ mean lam t s :=
  intervalIntegral.integral_nonneg hts fun x _ => h.nonneg x

theorem Rate.mean_lipschitz (h : Rate lam r) (s : ℝ) : LipschitzWith ⟨r, h.pos.le⟩ fun t => mean lam t s := by
  refine LipschitzWith.of_dist_le_mul fun a b => ?_
  rw [dist_eq, dist_eq]
  have : mean lam a s - mean lam b s = ∫ u in a..b, lam u := by
    unfold mean
    rw [intervalIntegral.integral_interval_sub_interval_comm (h.integrable _ _) (h.integrable _ _) (h.integrable _ _)]
    simp
  rw [this]
  have hb := intervalIntegral.norm_integral_le_of_norm_le_const (a := a) (b := b) (C := r) (f := lam) fun x _ => by
    rw [norm_eq_abs, abs_of_nonneg (h.nonneg x)]; exact h.le x
  rw [norm_eq_abs, abs_sub_comm b a] at hb
  exact hb

theorem Rate.mean_continuous (h : Rate lam r) (s : ℝ) : Continuous fun t => mean lam t s := (h.mean_lipschitz s).continuous

/-- The right side of the integral equation, without the constant. -/
noncomputable def kern (lam : ℝ → ℝ) (r t : ℝ) (f g : ℝ → ℝ) (u : ℝ) : ℝ :=
  exp (-(r * (u - t))) * (lam u * f u + (r - lam u) * g u)

/-- Poisson probabilities solve the equation of the first candidate. -/
theorem pois_solves (h : Rate lam r) (k : ℕ) {t s : ℝ} (hts : t ≤ s) :
    pois k (mean lam t s) = (if k = 0 then exp (-(r * (s - t))) else 0) +
      ∫ u in t..s, kern lam r t (fun u => poisPred k (mean lam u s)) (fun u => pois k (mean lam u s)) u := by
  set f : ℝ → ℝ := fun u => exp (-(r * (u - t))) * pois k (mean lam u s) with hf
  have hac : AbsolutelyContinuousOnInterval f t s := by
    have h1 : AbsolutelyContinuousOnInterval (fun u => exp (-(r * (u - t)))) t s :=
      ContDiffOn.absolutelyContinuousOnInterval (by fun_prop)
    have h2 : AbsolutelyContinuousOnInterval (fun u => pois k (mean lam u s)) t s := by
      obtain ⟨K, hK⟩ := (pois_contDiff k).contDiffOn.exists_lipschitzOnWith (s := Icc 0 (r * (s - t))) (by decide)
        (convex_Icc _ _) isCompact_Icc
      have hm : MapsTo (fun u => mean lam u s) (uIcc t s) (Icc 0 (r * (s - t))) := by
        intro u hu
        rw [uIcc_of_le hts] at hu
        refine ⟨h.mean_nonneg hu.2, ?_⟩
        have := (h.mean_lipschitz s).dist_le_mul u s
        rw [dist_eq, dist_eq] at this
        rw [show mean lam s s = 0 from intervalIntegral.integral_same, sub_zero] at this
        rw [abs_of_nonneg (h.mean_nonneg hu.2), abs_sub_comm, abs_of_nonneg (by linarith [hu.2])] at this
        refine this.trans ?_
        have := h.pos
        show r * (s - u) ≤ _
        gcongr
        exact hu.1
      exact (hK.comp ((h.mean_lipschitz s).lipschitzOnWith) hm).absolutelyContinuousOnInterval
    exact h1.mul h2
  have hd := hac.integral_deriv_eq_sub
  have hae : ∀ᵐ u, u ∈ uIoc t s → deriv f u =
      -kern lam r t (fun u => poisPred k (mean lam u s)) (fun u => pois k (mean lam u s)) u := by
    filter_upwards [(h.integrable t s).ae_hasDerivAt_integral] with u hu hu'
    have hu1 := hu (uIoc_subset_uIcc hu') s right_mem_uIcc
    have hl : HasDerivAt (fun u => mean lam u s) (-lam u) u := by
      have he : (fun u => mean lam u s) = fun u => -∫ v in s..u, lam v := by
        funext v; rw [mean, intervalIntegral.integral_symm]
      rw [he]
      exact hu1.neg
    have hp := (pois_hasDerivAt k (mean lam u s)).comp u hl
    have hx : HasDerivAt (fun u => exp (-(r * (u - t)))) (exp (-(r * (u - t))) * -(r * 1)) u :=
      ((((hasDerivAt_id u).sub_const t).const_mul r).neg).exp
    have := (hx.mul hp).deriv
    rw [show f = (fun u => exp (-(r * (u - t)))) * (pois k ∘ fun u => mean lam u s) from rfl, this]
    simp only [kern, Function.comp]
    ring
  rw [intervalIntegral.integral_congr_ae hae, intervalIntegral.integral_neg] at hd
  have e1 : f s = if k = 0 then exp (-(r * (s - t))) else 0 := by
    simp only [hf, mean, intervalIntegral.integral_same, pois_zero]
    split <;> simp
  have e2 : f t = pois k (mean lam t s) := by simp [hf]
  rw [e1, e2] at hd
  linarith

/-- A bounded function that is at most `r` times its integral up to `s` is zero. -/
theorem zero_of_le_integral {D : ℝ → ℝ} {B s : ℝ} (hr : 0 < r) (hD : Measurable D) (h0 : ∀ t, 0 ≤ D t)
    (hB : ∀ t, t ≤ s → D t ≤ B) (h : ∀ t, t ≤ s → D t ≤ ∫ u in t..s, r * D u) : ∀ t, t ≤ s → D t = 0 := by
  have key : ∀ m : ℕ, ∀ t, t ≤ s → D t ≤ B * ((r * (s - t)) ^ m / m.factorial) := by
    intro m
    induction m with
    | zero => intro t ht; simpa using hB t ht
    | succ m ih =>
      intro t ht
      have hi : IntervalIntegrable (fun u => r * D u) volume t s := by
        rw [intervalIntegrable_iff_integrableOn_Ioc_of_le ht]
        refine Measure.integrableOn_of_bounded (M := r * B) (by simp) (hD.const_mul r).aestronglyMeasurable ?_
        filter_upwards [ae_restrict_mem measurableSet_Ioc] with u hu
        rw [norm_eq_abs, abs_of_nonneg (mul_nonneg hr.le (h0 u))]
        gcongr
        exact hB u hu.2
      have hder : ∀ u ∈ uIcc t s, HasDerivAt (fun u => -(B * ((r * (s - u)) ^ (m + 1) / (m + 1).factorial)))
          (r * (B * ((r * (s - u)) ^ m / m.factorial))) u := by
        intro u _
        have h1 : HasDerivAt (fun u => r * (s - u)) (r * -1) u := ((hasDerivAt_id u).const_sub s).const_mul r
        have h2 := (((h1.pow (m + 1)).div_const ((m + 1).factorial : ℝ)).const_mul B).neg
        refine HasDerivAt.congr_deriv h2 ?_
        have hk : ((m + 1).factorial : ℝ) = (m + 1) * m.factorial := by rw [Nat.factorial_succ]; push_cast; ring
        rw [hk]
        have : (m.factorial : ℝ) ≠ 0 := by positivity
        have : (m + 1 : ℝ) ≠ 0 := by positivity
        simp only [Nat.add_sub_cancel]
        field_simp
        push_cast
        ring
      have hc : IntervalIntegrable (fun u => r * (B * ((r * (s - u)) ^ m / m.factorial))) volume t s :=
        (Continuous.intervalIntegrable (by fun_prop) _ _)
      have hint := intervalIntegral.integral_eq_sub_of_hasDerivAt hder hc
      calc D t ≤ ∫ u in t..s, r * D u := h t ht
        _ ≤ ∫ u in t..s, r * (B * ((r * (s - u)) ^ m / m.factorial)) :=
          intervalIntegral.integral_mono_on ht hi hc fun u hu => by
            have := ih u hu.2
            gcongr
        _ = _ := by rw [hint]; simp
  intro t ht
  have hlim := (FloorSemiring.tendsto_pow_div_factorial_atTop (r * (s - t))).const_mul B
  rw [mul_zero] at hlim
  exact le_antisymm (ge_of_tendsto' hlim fun m => key m t ht) (h0 t)

/-- The bounded solutions of the equations of the first candidate are multiples of Poisson probabilities. -/
theorem unique_solution (h : Rate lam r) {q : ℕ → ℝ → ℝ} {s C : ℝ} (hq : ∀ k, Measurable (q k)) (hb : ∀ k t, |q k t| ≤ 1)
    (heq : ∀ k t, t ≤ s → q k t = (if k = 0 then C * exp (-(r * (s - t))) else 0) +
      ∫ u in t..s, kern lam r t (prevOf q k) (q k) u) :
    ∀ k t, t ≤ s → q k t = C * pois k (mean lam t s) := by
  intro k
  induction k using Nat.strong_induction_on with
  | _ k ih =>
    set D : ℝ → ℝ := fun t => |q k t - C * pois k (mean lam t s)| with hDdef
    have hcont : Continuous fun u => pois k (mean lam u s) := (pois_contDiff k).continuous.comp (h.mean_continuous s)
    have hD : Measurable D := measurable_norm.comp ((hq k).sub (hcont.measurable.const_mul C))
    have hbound : ∀ t, t ≤ s → D t ≤ 1 + |C| := by
      intro t ht
      refine (abs_sub _ _).trans ?_
      refine add_le_add (hb k t) ?_
      · rw [abs_mul, abs_of_nonneg (pois_nonneg k (h.mean_nonneg ht))]
        exact mul_le_of_le_one_right (abs_nonneg _) (pois_le_one k (h.mean_nonneg ht))
    have hmain : ∀ t, t ≤ s → D t ≤ ∫ u in t..s, r * D u := by
      intro t ht
      have e1 := heq k t ht
      have e2 := pois_solves h k ht
      have hpred : ∀ u ≤ s, prevOf q k u = C * poisPred k (mean lam u s) := by
        intro u hu
        cases k with
        | zero => simp [poisPred, prevOf]
        | succ k => exact ih k (Nat.lt_succ_self k) u hu
      have hexp : Continuous fun u => exp (-(r * (u - t))) := by fun_prop
      have hint (g : ℝ → ℝ) (hg : Measurable g) {M : ℝ} (hM : ∀ u ∈ Ioc t s, |g u| ≤ M) : IntervalIntegrable g volume t s := by
        rw [intervalIntegrable_iff_integrableOn_Ioc_of_le ht]
        refine Measure.integrableOn_of_bounded (M := M) (by simp) hg.aestronglyMeasurable ?_
        filter_upwards [ae_restrict_mem measurableSet_Ioc] with u hu using hM u hu
      have hexp1 : ∀ u ∈ Ioc t s, exp (-(r * (u - t))) ≤ 1 := fun u hu => by
        rw [exp_le_one_iff]; have := h.pos; nlinarith [hu.1]
      have hk1 : ∀ f g : ℝ → ℝ, Measurable f → Measurable g → ∀ M, 0 ≤ M → (∀ u ∈ Ioc t s, |f u| ≤ M) → (∀ u ∈ Ioc t s, |g u| ≤ M) →
          IntervalIntegrable (kern lam r t f g) volume t s := by
        intro f g hf hg M hM0 hfM hgM
        refine hint _ ?_ (M := 1 * (r * M + r * M)) fun u hu => ?_
        · exact hexp.measurable.mul ((h.meas.mul hf).add ((h.meas.const_sub r).mul hg))
        · unfold kern
          rw [abs_mul, abs_of_pos (exp_pos _)]
          refine mul_le_mul (hexp1 u hu) ?_ (abs_nonneg _) zero_le_one
          refine (abs_add_le _ _).trans ?_
          rw [abs_mul, abs_mul, abs_of_nonneg (h.nonneg u), abs_of_nonneg (sub_nonneg.mpr (h.le u))]
          have := h.nonneg u
          have := h.le u
          have := h.pos
          gcongr
          · exact hfM u hu
          · linarith
          · exact hgM u hu
      have hi1 : IntervalIntegrable (kern lam r t (prevOf q k) (q k)) volume t s := by
        refine hk1 _ _ ?_ (hq k) 1 zero_le_one ?_ fun u _ => hb k u
        · cases k with
          | zero => exact measurable_const
          | succ k => exact hq k
        · intro u _
          cases k with
          | zero => simp [prevOf]
          | succ k => exact hb k u
      have hpp : ∀ u ∈ Ioc t s, |poisPred k (mean lam u s)| ≤ 1 := fun u hu => by
        cases k with
        | zero => simp [poisPred, prevOf]
        | succ k =>
          show |pois k _| ≤ 1; rw [abs_of_nonneg (pois_nonneg k (h.mean_nonneg hu.2))]
          exact pois_le_one k (h.mean_nonneg hu.2)
      have hi2 : IntervalIntegrable (kern lam r t (fun u => poisPred k (mean lam u s)) (fun u => pois k (mean lam u s))) volume t s := by
        refine hk1 _ _ ?_ hcont.measurable 1 zero_le_one hpp fun u hu => ?_
        · cases k with
          | zero => exact measurable_const
          | succ k => exact ((pois_contDiff k).continuous.comp (h.mean_continuous s)).measurable
        · rw [abs_of_nonneg (pois_nonneg k (h.mean_nonneg hu.2))]
          exact pois_le_one k (h.mean_nonneg hu.2)
      have hdiff : q k t - C * pois k (mean lam t s) =
          ∫ u in t..s, exp (-(r * (u - t))) * ((r - lam u) * (q k u - C * pois k (mean lam u s))) := by
        rw [e1, e2, mul_add, ← intervalIntegral.integral_const_mul]
        have hz : (if k = 0 then C * exp (-(r * (s - t))) else 0) = C * if k = 0 then exp (-(r * (s - t))) else 0 := by
          split <;> simp
        rw [hz, add_sub_add_left_eq_sub, ← intervalIntegral.integral_sub hi1 (hi2.const_mul C)]
        refine intervalIntegral.integral_congr fun u hu => ?_
        rw [uIcc_of_le ht] at hu
        simp only [kern]
        rw [hpred u hu.2]
        ring
      have hiD : IntervalIntegrable (fun u => r * D u) volume t s := by
        refine hint _ (hD.const_mul r) (M := r * (1 + |C|)) fun u hu => ?_
        have := h.pos
        rw [abs_mul, abs_of_pos h.pos, abs_of_nonneg (abs_nonneg _)]
        gcongr
        exact hbound u hu.2
      show |q k t - _| ≤ _
      rw [hdiff]
      rw [← norm_eq_abs]
      refine (intervalIntegral.norm_integral_le_of_norm_le ht ?_ hiD)
      refine Filter.Eventually.of_forall fun u hu => ?_
      rw [norm_eq_abs, abs_mul, abs_mul, abs_of_pos (exp_pos _), abs_of_nonneg (sub_nonneg.mpr (h.le u))]
      calc _ ≤ 1 * ((r - lam u) * |q k u - C * pois k (mean lam u s)|) := by
            have := sub_nonneg.mpr (h.le u)
            gcongr
            exact hexp1 u hu
        _ ≤ r * D u := by
            rw [one_mul]
            have := h.nonneg u
            show _ ≤ r * |_|
            gcongr
            linarith
    have hz := zero_of_le_integral h.pos hD (fun _ => abs_nonneg _) hbound hmain
    intro t ht
    exact sub_eq_zero.mp (abs_eq_zero.mp (hz t ht))

end

end Verif.Thin
