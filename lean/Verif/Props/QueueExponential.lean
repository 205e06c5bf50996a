import Verif.Props.QueueInvariant
import Mathlib.Probability.Distributions.Exponential

/-! # C140: a queue with one server and exponential times -/

set_option linter.unusedSectionVars false

namespace Verif.QueueSpec

open Filter Topology MeasureTheory ProbabilityTheory

theorem exp_lintegral (r : ℝ) {f : ℝ → ENNReal} (hf : Measurable f) :
    ∫⁻ x, f x ∂expMeasure r = ∫⁻ x in Set.Ioi 0, ENNReal.ofReal (r * Real.exp (-(r * x))) * f x := by
  have h1 : expMeasure r = volume.withDensity (exponentialPDF r) := rfl
  have h2 : Measurable (exponentialPDF r) := (measurable_exponentialPDFReal r).ennreal_ofReal
  rw [h1, lintegral_withDensity_eq_lintegral_mul _ h2 hf, setLIntegral_congr Ioi_ae_eq_Ici,
    ← lintegral_indicator measurableSet_Ici]
  refine lintegral_congr fun x => ?_
  by_cases hx : 0 ≤ x
  · rw [Set.indicator_of_mem (by exact hx), Pi.mul_apply, exponentialPDF_of_nonneg hx]
  · rw [Set.indicator_of_notMem (by simpa using hx), Pi.mul_apply, exponentialPDF_of_neg (not_le.mp hx), zero_mul]

theorem lintegral_tail {G g : ℝ → ℝ} {l : ℝ} (hG : ∀ x, HasDerivAt G (g x) x) (hg : ∀ x, 0 < x → 0 ≤ g x)
    (hl : Tendsto G atTop (𝓝 l)) : ∫⁻ x in Set.Ioi 0, ENNReal.ofReal (g x) = ENNReal.ofReal (l - G 0) := by
  rw [← integral_Ioi_of_hasDerivAt_of_nonneg' (fun x _ => hG x) (fun x hx => hg x hx) hl,
    ofReal_integral_eq_lintegral_ofReal (integrableOn_Ioi_deriv_of_nonneg' (fun x _ => hG x) (fun x hx => hg x hx) hl)
      ((ae_restrict_iff' measurableSet_Ioi).mpr (Eventually.of_forall fun x hx => hg x hx))]

theorem lintegral_part {G g : ℝ → ℝ} {y : ℝ} (hy : 0 ≤ y) (hG : ∀ x, HasDerivAt G (g x) x) (hc : Continuous g)
    (hg : ∀ x ∈ Set.Ioc 0 y, 0 ≤ g x) : ∫⁻ x in Set.Ioc 0 y, ENNReal.ofReal (g x) = ENNReal.ofReal (G y - G 0) := by
  rw [← intervalIntegral.integral_eq_sub_of_hasDerivAt (fun x _ => hG x) (hc.intervalIntegrable 0 y),
    intervalIntegral.integral_of_le hy, ofReal_integral_eq_lintegral_ofReal ((hc.intervalIntegrable 0 y).1)
      ((ae_restrict_iff' measurableSet_Ioc).mpr (Eventually.of_forall fun x hx => hg x hx))]

theorem exp_deriv (a k x : ℝ) : HasDerivAt (fun x => a * Real.exp (-(k * x))) (-(a * k * Real.exp (-(k * x)))) x := by
  have h1 : HasDerivAt (fun x => -(k * x)) (-k) x := by
    have h2 := (hasDerivAt_id' x).const_mul (-k)
    rw [mul_one] at h2
    exact h2.congr_of_eventuallyEq (Eventually.of_forall fun y => (neg_mul k y).symm)
  have h3 := (h1.exp).const_mul a
  have e : a * (Real.exp (-(k * x)) * -k) = -(a * k * Real.exp (-(k * x))) := by ring
  rwa [e] at h3

theorem exp_tail {k : ℝ} (hk : 0 < k) (a : ℝ) : Tendsto (fun x => a * Real.exp (-(k * x))) atTop (𝓝 0) := by
  have h1 : Tendsto (fun x => -(k * x)) atTop atBot := tendsto_neg_atTop_atBot.comp (tendsto_id.const_mul_atTop hk)
  simpa using (Real.tendsto_exp_atBot.comp h1).const_mul a

theorem exp_Iic {r : ℝ} (hr : 0 < r) (x : ℝ) :
    expMeasure r (Set.Iic x) = ENNReal.ofReal (if 0 ≤ x then 1 - Real.exp (-(r * x)) else 0) := by
  have := isProbabilityMeasure_expMeasure hr
  rw [← ofReal_cdf, cdf_expMeasure_eq hr]

/-- No waiting with probability `1 - lam / mu`, and otherwise an exponential time of rate `mu - lam`. -/
noncomputable def mmLaw (lam mu : ℝ) : Measure ℝ :=
  ENNReal.ofReal (1 - lam / mu) • Measure.dirac 0 + ENNReal.ofReal (lam / mu) • expMeasure (mu - lam)

section
variable {lam mu : ℝ} (h0 : 0 < lam) (hlt : lam < mu)
include h0 hlt

theorem mm_rho : 0 < lam / mu ∧ lam / mu < 1 :=
  ⟨div_pos h0 (h0.trans hlt), (div_lt_one (h0.trans hlt)).mpr hlt⟩

theorem mmLaw_prob : IsProbabilityMeasure (mmLaw lam mu) := by
  obtain ⟨h1, h2⟩ := mm_rho h0 hlt
  have := isProbabilityMeasure_expMeasure (sub_pos.mpr hlt)
  constructor
  rw [mmLaw, Measure.add_apply, Measure.smul_apply, Measure.smul_apply, measure_univ, measure_univ, smul_eq_mul, smul_eq_mul,
    mul_one, mul_one, ← ENNReal.ofReal_add (by linarith) h1.le]
  simp

theorem mmLaw_Iic {x : ℝ} (hx : 0 ≤ x) :
    mmLaw lam mu (Set.Iic x) = ENNReal.ofReal (1 - lam / mu * Real.exp (-((mu - lam) * x))) := by
  obtain ⟨h1, h2⟩ := mm_rho h0 hlt
  have h3 : Real.exp (-((mu - lam) * x)) ≤ 1 := Real.exp_le_one_iff.mpr (by nlinarith)
  rw [mmLaw, Measure.add_apply, Measure.smul_apply, Measure.smul_apply, exp_Iic (sub_pos.mpr hlt), if_pos hx,
    Measure.dirac_apply_of_mem (by exact hx), smul_eq_mul, smul_eq_mul, mul_one, ← ENNReal.ofReal_mul h1.le,
    ← ENNReal.ofReal_add (by linarith) (mul_nonneg h1.le (by linarith))]
  congr 1
  ring

theorem mmLaw_Iio : mmLaw lam mu (Set.Iio 0) = 0 := by
  have h1 : expMeasure (mu - lam) (Set.Iio 0) = 0 :=
    measure_mono_null (Set.Iio_subset_Iic_self) (by rw [exp_Iic (sub_pos.mpr hlt)]; simp)
  rw [mmLaw, Measure.add_apply, Measure.smul_apply, Measure.smul_apply, h1]
  simp

theorem mmLaw_neg {x : ℝ} (hx : x < 0) : mmLaw lam mu (Set.Iic x) = 0 :=
  measure_mono_null (fun _ hy => lt_of_le_of_lt hy hx) (mmLaw_Iio h0 hlt)

theorem mmLaw_meas (y : ℝ) : Measurable fun s => mmLaw lam mu (Set.Iic (y - s)) :=
  Antitone.measurable fun a b hab => measure_mono (Set.Iic_subset_Iic.mpr (by linarith))

/-- Waiting and service together take an exponential time. -/
theorem mm_stay {y : ℝ} (hy : 0 ≤ y) :
    ∫⁻ s, mmLaw lam mu (Set.Iic (y - s)) ∂expMeasure mu = ENNReal.ofReal (1 - Real.exp (-((mu - lam) * y))) := by
  obtain ⟨h1, h2⟩ := mm_rho h0 hlt
  have hmu := h0.trans hlt
  rw [exp_lintegral _ (mmLaw_meas h0 hlt y), ← Set.Ioc_union_Ioi_eq_Ioi hy,
    lintegral_union measurableSet_Ioi Set.Ioc_disjoint_Ioi_same]
  have e1 : ∫⁻ s in Set.Ioi y, ENNReal.ofReal (mu * Real.exp (-(mu * s))) * mmLaw lam mu (Set.Iic (y - s)) = 0 := by
    rw [setLIntegral_congr_fun measurableSet_Ioi (g := fun _ => 0)]
    · simp
    · intro s hs
      have : y - s < 0 := sub_neg.mpr hs
      simp only [mmLaw_neg h0 hlt this, mul_zero]
  let g : ℝ → ℝ := fun s => mu * Real.exp (-(mu * s)) - Real.exp (-((mu - lam) * y)) * lam * Real.exp (-(lam * s))
  have e2 : ∫⁻ s in Set.Ioc 0 y, ENNReal.ofReal (mu * Real.exp (-(mu * s))) * mmLaw lam mu (Set.Iic (y - s)) =
      ∫⁻ s in Set.Ioc 0 y, ENNReal.ofReal (g s) := by
    refine setLIntegral_congr_fun measurableSet_Ioc fun s hs => ?_
    rw [mmLaw_Iic h0 hlt (sub_nonneg.mpr hs.2), ← ENNReal.ofReal_mul (by positivity)]
    congr 1
    have e3 : Real.exp (-((mu - lam) * y)) * Real.exp (-(lam * s)) =
        Real.exp (-(mu * s)) * Real.exp (-((mu - lam) * (y - s))) := by
      rw [← Real.exp_add, ← Real.exp_add]
      congr 1
      ring
    have : g s = mu * Real.exp (-(mu * s)) - lam * (Real.exp (-((mu - lam) * y)) * Real.exp (-(lam * s))) := by
      simp only [g]; ring
    rw [this, e3]
    field_simp
  have hg : ∀ s ∈ Set.Ioc 0 y, 0 ≤ g s := by
    intro s hs
    have e3 : Real.exp (-((mu - lam) * y)) * Real.exp (-(lam * s)) ≤ Real.exp (-(mu * s)) := by
      rw [← Real.exp_add]
      refine Real.exp_le_exp.mpr ?_
      nlinarith [hs.2]
    have e4 : 0 ≤ Real.exp (-((mu - lam) * y)) * Real.exp (-(lam * s)) := by positivity
    have : g s = mu * Real.exp (-(mu * s)) - lam * (Real.exp (-((mu - lam) * y)) * Real.exp (-(lam * s))) := by
      simp only [g]; ring
    rw [this]
    nlinarith
  have hG : ∀ s, HasDerivAt (fun s => -1 * Real.exp (-(mu * s)) + Real.exp (-((mu - lam) * y)) * Real.exp (-(lam * s)))
      (g s) s := by
    intro s
    have h1 := (exp_deriv (-1) mu s).add (exp_deriv (Real.exp (-((mu - lam) * y))) lam s)
    have e : -(-1 * mu * Real.exp (-(mu * s))) + -(Real.exp (-((mu - lam) * y)) * lam * Real.exp (-(lam * s))) = g s := by
      simp only [g]; ring
    rw [e] at h1
    exact h1
  have hc : Continuous g := by simp only [g]; fun_prop
  rw [e1, e2, add_zero, lintegral_part hy hG hc hg]
  congr 1
  have e3 : Real.exp (-((mu - lam) * y)) * Real.exp (-(lam * y)) = Real.exp (-(mu * y)) := by
    rw [← Real.exp_add]
    congr 1
    ring
  rw [e3]
  simp
  ring

theorem mm_settled : Settled (expMeasure lam) (expMeasure mu) (mmLaw lam mu) := by
  have hmu := h0.trans hlt
  obtain ⟨h1, h2⟩ := mm_rho h0 hlt
  have := isProbabilityMeasure_expMeasure h0
  have := isProbabilityMeasure_expMeasure hmu
  have := mmLaw_prob h0 hlt
  rw [settled_iff]
  refine ⟨mmLaw_Iio h0 hlt, fun x hx => ?_⟩
  have hm : Measurable fun p : ℝ × ℝ => mmLaw lam mu (Set.Iic (x - (p.1 - p.2))) :=
    (mmLaw_meas h0 hlt x).comp (by fun_prop)
  rw [lintegral_map (mmLaw_meas h0 hlt x) (by fun_prop), lintegral_prod_symm _ hm.aemeasurable,
    exp_lintegral _ hm.lintegral_prod_left', mmLaw_Iic h0 hlt hx]
  let g : ℝ → ℝ := fun a => lam * Real.exp (-(lam * a)) - lam * Real.exp (-((mu - lam) * x)) * Real.exp (-(mu * a))
  have e3 : ∀ a, Real.exp (-(lam * a)) * Real.exp (-((mu - lam) * (x + a))) =
      Real.exp (-((mu - lam) * x)) * Real.exp (-(mu * a)) := by
    intro a
    rw [← Real.exp_add, ← Real.exp_add]
    congr 1
    ring
  have e2 : ∀ a, 0 < a → ENNReal.ofReal (lam * Real.exp (-(lam * a))) *
      ∫⁻ s, mmLaw lam mu (Set.Iic (x - (s - a))) ∂expMeasure mu = ENNReal.ofReal (g a) := by
    intro a ha
    have : ∀ s, x - (s - a) = (x + a) - s := fun s => by ring
    simp_rw [this]
    rw [mm_stay h0 hlt (by linarith), ← ENNReal.ofReal_mul (by positivity)]
    congr 1
    simp only [g]
    rw [mul_assoc lam (Real.exp (-((mu - lam) * x))), ← e3]
    ring
  rw [setLIntegral_congr_fun (g := fun a => ENNReal.ofReal (g a)) measurableSet_Ioi fun a ha => e2 a ha]
  have hG : ∀ a, HasDerivAt (fun a => -1 * Real.exp (-(lam * a)) +
      (lam / mu * Real.exp (-((mu - lam) * x))) * Real.exp (-(mu * a))) (g a) a := by
    intro a
    have h1 := (exp_deriv (-1) lam a).add (exp_deriv (lam / mu * Real.exp (-((mu - lam) * x))) mu a)
    have e : -(-1 * lam * Real.exp (-(lam * a))) + -(lam / mu * Real.exp (-((mu - lam) * x)) * mu * Real.exp (-(mu * a))) =
        g a := by
      simp only [g]; field_simp; ring
    rw [e] at h1
    exact h1
  rw [lintegral_tail hG _ (by simpa using (exp_tail h0 (-1)).add (exp_tail hmu _))]
  · congr 1
    simp
    ring
  · intro a ha
    simp only [g]
    rw [mul_assoc lam (Real.exp (-((mu - lam) * x))), ← e3]
    have : Real.exp (-((mu - lam) * (x + a))) ≤ 1 := Real.exp_le_one_iff.mpr (by nlinarith)
    have := Real.exp_pos (-(lam * a))
    nlinarith [mul_nonneg h0.le this.le, mul_le_mul_of_nonneg_left ‹Real.exp (-((mu - lam) * (x + a))) ≤ 1› (mul_nonneg h0.le this.le)]

end

theorem exp_nonneg {r : ℝ} (hr : 0 < r) : ∀ᵐ x ∂expMeasure r, 0 ≤ x := by
  have h1 : expMeasure r (Set.Iio 0) = 0 :=
    measure_mono_null (Set.Iio_subset_Iic_self) (by rw [exp_Iic hr]; simp)
  rw [ae_iff]
  simpa [Set.Iio_def] using h1

theorem exp_mean_lintegral {r : ℝ} (hr : 0 < r) : ∫⁻ x, ENNReal.ofReal x ∂expMeasure r = ENNReal.ofReal (1 / r) := by
  rw [exp_lintegral r ENNReal.measurable_ofReal]
  have e : ∀ x ∈ Set.Ioi (0 : ℝ), ENNReal.ofReal (r * Real.exp (-(r * x))) * ENNReal.ofReal x =
      ENNReal.ofReal (x * (r * Real.exp (-(r * x)))) := by
    intro x hx
    rw [mul_comm, ENNReal.ofReal_mul (le_of_lt hx)]
  rw [setLIntegral_congr_fun measurableSet_Ioi e]
  have hG : ∀ x, HasDerivAt (fun x => x * (-1 * Real.exp (-(r * x))) + -(1 / r) * Real.exp (-(r * x)))
      (x * (r * Real.exp (-(r * x)))) x := by
    intro x
    have h1 := ((hasDerivAt_id' x).mul (exp_deriv (-1) r x)).add (exp_deriv (-(1 / r)) r x)
    have e : 1 * (-1 * Real.exp (-(r * x))) + x * -(-1 * r * Real.exp (-(r * x))) +
        -(-(1 / r) * r * Real.exp (-(r * x))) = x * (r * Real.exp (-(r * x))) := by
      field_simp
      ring
    rw [e] at h1
    exact h1
  have hl : Tendsto (fun x => x * (-1 * Real.exp (-(r * x))) + -(1 / r) * Real.exp (-(r * x))) atTop (𝓝 0) := by
    have h1 := (tendsto_rpow_mul_exp_neg_mul_atTop_nhds_zero 1 r hr).neg
    have h2 := h1.add (exp_tail hr (-(1 / r)))
    simp only [Real.rpow_one, neg_zero, add_zero] at h2
    refine h2.congr fun x => ?_
    rw [neg_mul r x]
    ring
  rw [lintegral_tail hG (fun x hx => by positivity) hl]
  simp

theorem exp_int {r : ℝ} (hr : 0 < r) : Integrable id (expMeasure r) := by
  refine ⟨aestronglyMeasurable_id, ?_⟩
  rw [show (id : ℝ → ℝ) = fun x => x from rfl, hasFiniteIntegral_iff_ofReal (exp_nonneg hr), exp_mean_lintegral hr]
  exact ENNReal.ofReal_lt_top

theorem exp_mean {r : ℝ} (hr : 0 < r) : ∫ x, x ∂expMeasure r = 1 / r := by
  rw [integral_eq_lintegral_of_nonneg_ae (exp_nonneg hr) aestronglyMeasurable_id, exp_mean_lintegral hr,
    ENNReal.toReal_ofReal (by positivity)]

section
variable {Ω : Type*} [MeasurableSpace Ω] {P : Measure Ω} [IsProbabilityMeasure P] {A S : ℕ → Ω → ℝ}

/-- C140: let times between arrivals be exponential of rate `lam` and services of rate `mu > lam`. The chance that the
`n`-th agent waits longer than `x` tends to `lam / mu * exp (-(mu - lam) * x)`, and the chance that more than `x` passes from
its arrival to the end of its service to `exp (-(mu - lam) * x)`. -/
theorem C140_exponential {lam mu : ℝ} (h0 : 0 < lam) (hlt : lam < mu) (h : RenewalInput P A S)
    (hA : P.map (A 0) = expMeasure lam) (hS : P.map (S 0) = expMeasure mu) {c : Ω → QCfg (WithTop ℝ)}
    (hc : ∀ ω, OneServer (c ω) (A · ω) (S · ω)) :
    ∃ W : ℕ → Ω → ℝ, (∀ n, Measurable (W n)) ∧
      (∀ ω b s l, Traj (c ω) b AloneOk s l → ∀ n p q, (atStage 0 (stamps s l))[n]? = some p →
        (atStage 1 (stamps s l))[n]? = some q → q.1 = p.1 ∧ q.2 = p.2 + (W n ω : WithTop ℝ)) ∧
      (∀ ω b s l, Traj (c ω) b AloneOk s l → ∀ n p q, (atStage 0 (stamps s l))[n]? = some p →
        (atStage 2 (stamps s l))[n]? = some q → q.1 = p.1 ∧ q.2 = p.2 + ((W n ω + S n ω : ℝ) : WithTop ℝ)) ∧
      (∀ x, 0 ≤ x → Tendsto (fun n => P.real {ω | x < W n ω}) atTop (𝓝 (lam / mu * Real.exp (-((mu - lam) * x))))) ∧
      ∀ x, 0 ≤ x → Tendsto (fun n => P.real {ω | x < W n ω + S n ω}) atTop (𝓝 (Real.exp (-((mu - lam) * x)))) := by
  have hmu := h0.trans hlt
  obtain ⟨r1, r2⟩ := mm_rho h0 hlt
  have mA : ∫ ω, A 0 ω ∂P = 1 / lam := by
    rw [← exp_mean h0, ← hA, integral_map (φ := A 0) (f := fun x => x) (h.meas (.inl 0)).aemeasurable aestronglyMeasurable_id]
  have mS : ∫ ω, S 0 ω ∂P = 1 / mu := by
    rw [← exp_mean hmu, ← hS, integral_map (φ := S 0) (f := fun x => x) (h.meas (.inr 0)).aemeasurable aestronglyMeasurable_id]
  have hmean : ∫ ω, S 0 ω ∂P < ∫ ω, A 0 ω ∂P := by
    rw [mA, mS]
    exact one_div_lt_one_div_of_lt h0 hlt
  have := mmLaw_prob h0 hlt
  have hset : Settled (P.map (A 0)) (P.map (S 0)) (mmLaw lam mu) := by
    rw [hA, hS]
    exact mm_settled h0 hlt
  have hW : ∀ x, Tendsto (fun n => P {ω | wait (A · ω) (S · ω) n ≤ x}) atTop (𝓝 (mmLaw lam mu (Set.Iic x))) := by
    intro x
    rw [h.settled_unique hmean hset]
    exact (h.wait_limit_law x).2
  have hc1 : ∀ (X : ℕ → Ω → ℝ) (x y : ℝ), (∀ n, Measurable (X n)) → 0 ≤ 1 - y →
      Tendsto (fun n => P {ω | X n ω ≤ x}) atTop (𝓝 (ENNReal.ofReal (1 - y))) →
      Tendsto (fun n => P.real {ω | x < X n ω}) atTop (𝓝 y) := by
    intro X x y hX hy ht
    have h1 := (ENNReal.tendsto_toReal ENNReal.ofReal_ne_top).comp ht
    rw [ENNReal.toReal_ofReal hy] at h1
    have h2 := h1.const_sub 1
    rw [sub_sub_cancel] at h2
    refine h2.congr fun n => ?_
    have e : {ω | x < X n ω} = {ω | X n ω ≤ x}ᶜ := by ext ω; simp
    rw [e, probReal_compl_eq_one_sub (measurableSet_le (hX n) measurable_const)]
    rfl
  have hexp : ∀ x, 0 ≤ x → Real.exp (-((mu - lam) * x)) ≤ 1 := fun x hx => Real.exp_le_one_iff.mpr (by nlinarith)
  refine ⟨fun n ω => wait (A · ω) (S · ω) n, h.wait_meas, fun ω b s l ht n p q hp hq => ?_,
    fun ω b s l ht n p q hp hq => ?_, fun x hx => ?_, fun x hx => ?_⟩
  · obtain ⟨e1, e2⟩ := (hc ω).times ht n
    rw [e1 p hp, e2 q hq]
    exact ⟨rfl, by norm_cast⟩
  · obtain ⟨e1, -⟩ := (hc ω).times ht n
    rw [e1 p hp, C134_departures (hc ω) ht n q hq, add_assoc]
    exact ⟨rfl, by norm_cast⟩
  · refine hc1 _ x _ h.wait_meas ?_ ?_
    · nlinarith [hexp x hx, Real.exp_pos (-((mu - lam) * x))]
    · rw [← mmLaw_Iic h0 hlt hx]
      exact hW x
  · refine hc1 (fun n ω => wait (A · ω) (S · ω) n + S n ω) x _ (fun n => (h.wait_meas n).add (h.meas (.inr n))) ?_ ?_
    · linarith [hexp x hx]
    · rw [← mm_stay h0 hlt hx, ← hS]
      simp_rw [h.stay_law]
      have : IsProbabilityMeasure (P.map (S 0)) := Measure.isProbabilityMeasure_map (h.meas (.inr 0)).aemeasurable
      refine tendsto_lintegral_of_dominated_convergence (fun _ => 1) (fun n => ?_) (fun n => ?_) (by simp) ?_
      · have := (h.law_meas n x).comp (measurable_prodMk_left (x := (0 : ℝ)))
        simpa [Function.comp_def, waitFrom_zero] using this
      · exact Eventually.of_forall fun v => prob_le_one
      · exact Eventually.of_forall fun y => hW _

end

/-- The functions a QueueServer has if none are given, `t + exponential(1.0)` and `t + exponential(0.9)` (queue_servers.py
lines 298-304): the rates are 1 and 10/9, so that in the long run an agent waits longer than `x` with probability
`0.9 * exp (-x / 9)` and stays longer than `x` with probability `exp (-x / 9)`. -/
example : ∃ W : ℕ → (ℕ ⊕ ℕ → ℝ) → ℝ,
    (∀ ω b s l, Traj (givenQueue (fun i => |ω (.inl i)|) fun i => |ω (.inr i)|) b AloneOk s l →
      ∀ n p q, (atStage 0 (stamps s l))[n]? = some p → (atStage 1 (stamps s l))[n]? = some q →
        q.1 = p.1 ∧ q.2 = p.2 + (W n ω : WithTop ℝ)) ∧
    (∀ x, 0 ≤ x → Tendsto (fun n => (Measure.infinitePi (laws (expMeasure 1) (expMeasure (10 / 9)))).real {ω | x < W n ω})
      atTop (𝓝 (9 / 10 * Real.exp (-(x / 9))))) ∧
    ∀ x, 0 ≤ x → Tendsto (fun n => (Measure.infinitePi (laws (expMeasure 1) (expMeasure (10 / 9)))).real
      {ω | x < W n ω + |ω (.inr n)|}) atTop (𝓝 (Real.exp (-(x / 9)))) := by
  have := isProbabilityMeasure_expMeasure (one_pos (α := ℝ))
  have := isProbabilityMeasure_expMeasure (show (0 : ℝ) < 10 / 9 by norm_num)
  obtain ⟨h1, -, -, h4⟩ := C133_met (expMeasure 1) (expMeasure (10 / 9)) (exp_int one_pos) (exp_int (by norm_num))
  have law : ∀ (r : ℝ) (x : ℕ ⊕ ℕ), 0 < r → laws (expMeasure 1) (expMeasure (10 / 9)) x = expMeasure r →
      (Measure.infinitePi (laws (expMeasure 1) (expMeasure (10 / 9)))).map (fun ω => |ω x|) = expMeasure r := by
    intro r x hr hx
    have e := Measure.infinitePi_map_eval (laws (expMeasure 1) (expMeasure (10 / 9))) x
    have abs1 : Measurable fun x : ℝ => |x| := by fun_prop
    have e2 : (fun ω : ℕ ⊕ ℕ → ℝ => |ω x|) = (fun y : ℝ => |y|) ∘ fun ω => ω x := rfl
    rw [e2, ← Measure.map_map abs1 (measurable_pi_apply x)]
    have e3 : (Measure.infinitePi (laws (expMeasure 1) (expMeasure (10 / 9)))).map (fun ω => ω x) = expMeasure r := by
      rw [← hx]; exact e
    rw [e3, Measure.map_congr (g := id)]
    · exact Measure.map_id
    · filter_upwards [exp_nonneg hr] with y hy
      exact abs_of_nonneg hy
  obtain ⟨W, -, g1, -, g2, g3⟩ := C140_exponential (lam := 1) (mu := 10 / 9) one_pos (by norm_num) h1
    (law 1 (.inl 0) one_pos rfl) (law (10 / 9) (.inr 0) (by norm_num) rfl) h4
  have e : ∀ x : ℝ, -((10 / 9 - 1) * x) = -(x / 9) := fun x => by ring
  simp only [e] at g2 g3
  refine ⟨W, g1, fun x hx => ?_, g3⟩
  have := g2 x hx
  norm_num at this ⊢
  exact this

end Verif.QueueSpec
