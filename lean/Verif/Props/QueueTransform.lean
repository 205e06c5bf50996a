import Verif.Props.QueueMean

/-! # C142: a queue with one server and Poisson arrivals -/

set_option linter.unusedSectionVars false

namespace Verif.QueueSpec

open Filter Topology MeasureTheory ProbabilityTheory

theorem lintegral_tail_from {G g : ℝ → ℝ} {l a : ℝ} (hG : ∀ x, HasDerivAt G (g x) x) (hg : ∀ x, a < x → 0 ≤ g x)
    (hl : Tendsto G atTop (𝓝 l)) : ∫⁻ x in Set.Ioi a, ENNReal.ofReal (g x) = ENNReal.ofReal (l - G a) := by
  rw [← integral_Ioi_of_hasDerivAt_of_nonneg' (fun x _ => hG x) (fun x hx => hg x hx) hl,
    ofReal_integral_eq_lintegral_ofReal (integrableOn_Ioi_deriv_of_nonneg' (fun x _ => hG x) (fun x hx => hg x hx) hl)
      ((ae_restrict_iff' measurableSet_Ioi).mpr (Eventually.of_forall fun x hx => hg x hx))]

/-- What is left of work `y` after an exponential time. -/
theorem rest_transform {lam th y : ℝ} (h0 : 0 < lam) (hy : 0 ≤ y) :
    (th - lam) * ∫ a, Real.exp (-(th * max 0 (y - a))) ∂expMeasure lam =
      th * Real.exp (-(lam * y)) - lam * Real.exp (-(th * y)) := by
  by_cases hne : th = lam
  · subst hne
    ring
  have hne' : th - lam ≠ 0 := sub_ne_zero.mpr hne
  have hm : Measurable fun a => Real.exp (-(th * max 0 (y - a))) := by fun_prop
  rw [integral_eq_lintegral_of_nonneg_ae (Eventually.of_forall fun a => (Real.exp_pos _).le) hm.aestronglyMeasurable,
    exp_lintegral _ hm.ennreal_ofReal, ← Set.Ioc_union_Ioi_eq_Ioi hy,
    lintegral_union measurableSet_Ioi Set.Ioc_disjoint_Ioi_same]
  have e1 : ∫⁻ a in Set.Ioi y, ENNReal.ofReal (lam * Real.exp (-(lam * a))) *
      ENNReal.ofReal (Real.exp (-(th * max 0 (y - a)))) = ENNReal.ofReal (Real.exp (-(lam * y))) := by
    have e : ∀ a ∈ Set.Ioi y, ENNReal.ofReal (lam * Real.exp (-(lam * a))) *
        ENNReal.ofReal (Real.exp (-(th * max 0 (y - a)))) = ENNReal.ofReal (lam * Real.exp (-(lam * a))) := by
      intro a ha
      rw [max_eq_left (sub_nonpos.mpr (le_of_lt ha))]
      simp
    rw [setLIntegral_congr_fun measurableSet_Ioi e]
    have hG : ∀ a, HasDerivAt (fun a => -1 * Real.exp (-(lam * a))) (lam * Real.exp (-(lam * a))) a := by
      intro a
      have h1 := exp_deriv (-1) lam a
      have e : -(-1 * lam * Real.exp (-(lam * a))) = lam * Real.exp (-(lam * a)) := by ring
      rwa [e] at h1
    rw [lintegral_tail_from hG (fun a _ => by positivity) (exp_tail h0 (-1))]
    congr 1
    ring
  let k := lam / (th - lam) * Real.exp (-(th * y))
  have e2 : ∫⁻ a in Set.Ioc 0 y, ENNReal.ofReal (lam * Real.exp (-(lam * a))) *
      ENNReal.ofReal (Real.exp (-(th * max 0 (y - a)))) =
        ENNReal.ofReal (k * Real.exp (-((lam - th) * y)) - k * Real.exp (-((lam - th) * 0))) := by
    have e : ∀ a ∈ Set.Ioc 0 y, ENNReal.ofReal (lam * Real.exp (-(lam * a))) *
        ENNReal.ofReal (Real.exp (-(th * max 0 (y - a)))) =
          ENNReal.ofReal (lam * (Real.exp (-(th * y)) * Real.exp (-((lam - th) * a)))) := by
      intro a ha
      rw [max_eq_right (sub_nonneg.mpr ha.2), ← ENNReal.ofReal_mul (by positivity), mul_assoc, ← Real.exp_add, ← Real.exp_add]
      have : -(lam * a) + -(th * (y - a)) = -(th * y) + -((lam - th) * a) := by ring
      rw [this]
    rw [setLIntegral_congr_fun measurableSet_Ioc e]
    have hG : ∀ a, HasDerivAt (fun a => k * Real.exp (-((lam - th) * a)))
        (lam * (Real.exp (-(th * y)) * Real.exp (-((lam - th) * a)))) a := by
      intro a
      have h1 := exp_deriv k (lam - th) a
      have e : -(k * (lam - th) * Real.exp (-((lam - th) * a))) =
          lam * (Real.exp (-(th * y)) * Real.exp (-((lam - th) * a))) := by
        simp only [k]
        field_simp
        ring
      rwa [e] at h1
    exact lintegral_part hy hG (by fun_prop) fun a _ => by positivity
  have hpos : 0 ≤ k * Real.exp (-((lam - th) * y)) - k * Real.exp (-((lam - th) * 0)) := by
    rcases lt_or_gt_of_ne hne with h | h
    · have hk : k ≤ 0 := mul_nonpos_of_nonpos_of_nonneg (div_nonpos_of_nonneg_of_nonpos h0.le (by linarith)) (Real.exp_pos _).le
      have : Real.exp (-((lam - th) * y)) ≤ Real.exp (-((lam - th) * 0)) := Real.exp_le_exp.mpr (by nlinarith)
      nlinarith
    · have hk : 0 ≤ k := mul_nonneg (div_nonneg h0.le (by linarith)) (Real.exp_pos _).le
      have : Real.exp (-((lam - th) * 0)) ≤ Real.exp (-((lam - th) * y)) := Real.exp_le_exp.mpr (by nlinarith)
      nlinarith
  rw [e1, e2, ← ENNReal.ofReal_add hpos (Real.exp_pos _).le, ENNReal.toReal_ofReal (add_nonneg hpos (Real.exp_pos _).le)]
  have e3 : Real.exp (-(th * y)) * Real.exp (-((lam - th) * y)) = Real.exp (-(lam * y)) := by
    rw [← Real.exp_add]
    congr 1
    ring
  have e4 : k * Real.exp (-((lam - th) * y)) = lam / (th - lam) * Real.exp (-(lam * y)) := by
    simp only [k]
    rw [mul_assoc, e3]
  rw [e4]
  simp only [k, mul_zero, neg_zero, Real.exp_zero, mul_one]
  field_simp
  ring

theorem exp_noAtoms (r : ℝ) : NullSingletonClass (expMeasure r) :=
  ⟨fun x => withDensity_absolutelyContinuous _ _ (measure_singleton x)⟩

theorem exp_Ici {r : ℝ} (hr : 0 < r) {y : ℝ} (hy : 0 ≤ y) : expMeasure r (Set.Ici y) = ENNReal.ofReal (Real.exp (-(r * y))) := by
  have := exp_noAtoms r
  have := isProbabilityMeasure_expMeasure hr
  rw [← measure_congr (μ := expMeasure r) (Ioi_ae_eq_Ici (a := y)), ← Set.compl_Iic, prob_compl_eq_one_sub measurableSet_Iic,
    exp_Iic hr, if_pos hy, ← ENNReal.ofReal_one, ← ENNReal.ofReal_sub]
  · congr 1; ring
  · have : Real.exp (-(r * y)) ≤ 1 := Real.exp_le_one_iff.mpr (by nlinarith)
    linarith

section
variable {Ω : Type*} [MeasurableSpace Ω] {P : Measure Ω} [IsProbabilityMeasure P] {A S : ℕ → Ω → ℝ}

theorem RenewalInput.stay_indep (h : RenewalInput P A S) (n : ℕ) :
    (fun ω => wait (A · ω) (S · ω) n + S n ω) ⟂ᵢ[P] A (n + 1) := by
  have h0 := indep_iSup_of_disjoint (fun x => (h.meas x).comap_le) h.indep.iIndep
    (disjoint_compl_left (a := ({.inl (n + 1)} : Set (ℕ ⊕ ℕ))))
  have hone : ∀ T : Set (ℕ ⊕ ℕ), ∀ x ∈ T,
      Measurable[⨆ x ∈ T, (inferInstance : MeasurableSpace ℝ).comap (Sum.elim A S x)] (Sum.elim A S x) := by
    intro T x hx
    exact measurable_iff_comap_le.mpr (le_iSup₂_of_le x hx le_rfl)
  have h1 := hone ({.inl (n + 1)}ᶜ) (.inr n) (by simp)
  have h2 := hone {.inl (n + 1)} (.inl (n + 1)) rfl
  have h3 : Measurable[⨆ x ∈ ({.inl (n + 1)} : Set (ℕ ⊕ ℕ))ᶜ, (inferInstance : MeasurableSpace ℝ).comap (Sum.elim A S x)]
      fun ω => wait (A · ω) (S · ω) n := by
    have := waitFrom_past (A := A) (S := S) 0 n
    simp only [waitFrom_zero] at this
    refine this.mono (biSup_mono fun x hx => ?_) le_rfl
    rintro rfl
    exact absurd hx (Nat.not_succ_le_self n)
  refine (IndepFun_iff_Indep _ _ _).mpr ?_
  refine indep_of_indep_of_le_left (indep_of_indep_of_le_right h0 ?_) ?_
  · exact measurable_iff_comap_le.mp h2
  · exact measurable_iff_comap_le.mp (h3.add h1)

/-- Mean of `exp (-th * waiting time)`. -/
noncomputable def phi (P : Measure Ω) (A S : ℕ → Ω → ℝ) (th : ℝ) (n : ℕ) : ℝ :=
  ∫ ω, Real.exp (-(th * wait (A · ω) (S · ω) n)) ∂P

theorem exp_bounded {X : Ω → ℝ} (hX : Measurable X) (h0 : ∀ ω, 0 ≤ X ω) {th : ℝ} (ht : 0 ≤ th) :
    Integrable (fun ω => Real.exp (-(th * X ω))) P := by
  refine Integrable.of_bound (C := 1) (by fun_prop) (Eventually.of_forall fun ω => ?_)
  rw [Real.norm_eq_abs, Real.abs_exp]
  exact Real.exp_le_one_iff.mpr (by have := mul_nonneg ht (h0 ω); linarith)

variable (h : RenewalInput P A S) (hS0 : ∀ i ω, 0 ≤ S i ω)
include h hS0

theorem RenewalInput.stay_transform {th : ℝ} (n : ℕ) :
    ∫ ω, Real.exp (-(th * (wait (A · ω) (S · ω) n + S n ω))) ∂P = phi P A S th n * ∫ ω, Real.exp (-(th * S 0 ω)) ∂P := by
  have hS : ∀ i, Measurable (S i) := fun i => h.meas (.inr i)
  have he : Measurable fun x : ℝ => Real.exp (-(th * x)) := by fun_prop
  have hi : (fun ω => wait (A · ω) (S · ω) n) ⟂ᵢ[P] S n := by
    have := (h.waitFrom_indep 0 n).comp measurable_id (measurable_fst : Measurable fun p : ℝ × ℝ => p.1)
    simpa only [Function.comp_def, waitFrom_zero, id] using this
  have e : ∀ ω, Real.exp (-(th * (wait (A · ω) (S · ω) n + S n ω))) =
      Real.exp (-(th * wait (A · ω) (S · ω) n)) * Real.exp (-(th * S n ω)) := by
    intro ω
    rw [← Real.exp_add]
    congr 1
    ring
  simp_rw [e]
  refine ((hi.comp he he).integral_fun_mul_eq_mul_integral (he.comp (h.wait_meas n)).aestronglyMeasurable
    (he.comp (hS n)).aestronglyMeasurable).trans ?_
  congr 1
  exact ((h.svc n).comp he).integral_eq

theorem RenewalInput.phi_step {lam th : ℝ} (h0 : 0 < lam) (hA : P.map (A 0) = expMeasure lam) (ht : 0 ≤ th) (n : ℕ) :
    (th - lam) * phi P A S th (n + 1) = th * (phi P A S lam n * ∫ ω, Real.exp (-(lam * S 0 ω)) ∂P) -
      lam * (phi P A S th n * ∫ ω, Real.exp (-(th * S 0 ω)) ∂P) := by
  have hAm : ∀ i, Measurable (A i) := fun i => h.meas (.inl i)
  have hS : ∀ i, Measurable (S i) := fun i => h.meas (.inr i)
  have hY : Measurable fun ω => wait (A · ω) (S · ω) n + S n ω := (h.wait_meas n).add (hS n)
  have hY0 : ∀ ω, 0 ≤ wait (A · ω) (S · ω) n + S n ω := fun ω => add_nonneg (wait_nonneg _ _ _) (hS0 n ω)
  have := isProbabilityMeasure_expMeasure h0
  have : IsProbabilityMeasure (P.map fun ω => wait (A · ω) (S · ω) n + S n ω) := Measure.isProbabilityMeasure_map hY.aemeasurable
  have hpair := (indepFun_iff_map_prod_eq_prod_map_map hY.aemeasurable (hAm (n + 1)).aemeasurable).mp (h.stay_indep n)
  rw [(h.arr (n + 1)).map_eq, hA] at hpair
  have hF : Measurable fun p : ℝ × ℝ => Real.exp (-(th * max 0 (p.1 - p.2))) := by fun_prop
  have iF : Integrable (fun p : ℝ × ℝ => Real.exp (-(th * max 0 (p.1 - p.2))))
      ((P.map fun ω => wait (A · ω) (S · ω) n + S n ω).prod (expMeasure lam)) :=
    exp_bounded (by fun_prop) (fun p => le_max_left _ _) ht
  have e1 : phi P A S th (n + 1) = ∫ y, ∫ a, Real.exp (-(th * max 0 (y - a))) ∂expMeasure lam
      ∂(P.map fun ω => wait (A · ω) (S · ω) n + S n ω) := by
    rw [← integral_prod _ iF, ← hpair, integral_map (hY.prodMk (hAm _)).aemeasurable hF.aestronglyMeasurable]
    rfl
  have hK : StronglyMeasurable fun y => ∫ a, Real.exp (-(th * max 0 (y - a))) ∂expMeasure lam :=
    StronglyMeasurable.integral_prod_right hF.stronglyMeasurable
  rw [e1, integral_map hY.aemeasurable hK.aestronglyMeasurable, ← integral_const_mul]
  simp_rw [fun ω => rest_transform (th := th) h0 (hY0 ω)]
  rw [integral_sub ((exp_bounded hY hY0 h0.le).const_mul th) ((exp_bounded hY hY0 ht).const_mul lam),
    integral_const_mul, integral_const_mul, h.stay_transform hS0, h.stay_transform hS0]

theorem RenewalInput.no_wait {lam : ℝ} (h0 : 0 < lam) (hA : P.map (A 0) = expMeasure lam) (n : ℕ) :
    P.real {ω | wait (A · ω) (S · ω) (n + 1) = 0} = phi P A S lam n * ∫ ω, Real.exp (-(lam * S 0 ω)) ∂P := by
  have hAm : ∀ i, Measurable (A i) := fun i => h.meas (.inl i)
  have hS : ∀ i, Measurable (S i) := fun i => h.meas (.inr i)
  have hY : Measurable fun ω => wait (A · ω) (S · ω) n + S n ω := (h.wait_meas n).add (hS n)
  have hY0 : ∀ ω, 0 ≤ wait (A · ω) (S · ω) n + S n ω := fun ω => add_nonneg (wait_nonneg _ _ _) (hS0 n ω)
  have := isProbabilityMeasure_expMeasure h0
  have : IsProbabilityMeasure (P.map fun ω => wait (A · ω) (S · ω) n + S n ω) := Measure.isProbabilityMeasure_map hY.aemeasurable
  have hpair := (indepFun_iff_map_prod_eq_prod_map_map hY.aemeasurable (hAm (n + 1)).aemeasurable).mp (h.stay_indep n)
  rw [(h.arr (n + 1)).map_eq, hA] at hpair
  have hs : MeasurableSet {p : ℝ × ℝ | p.1 ≤ p.2} := measurableSet_le measurable_fst measurable_snd
  have e1 : P {ω | wait (A · ω) (S · ω) (n + 1) = 0} = P.map (fun ω => (wait (A · ω) (S · ω) n + S n ω, A (n + 1) ω)) {p | p.1 ≤ p.2} := by
    rw [Measure.map_apply (hY.prodMk (hAm _)) hs]
    congr 1
    ext ω
    simp [wait]
  rw [Measure.real, e1, hpair, Measure.prod_apply hs, lintegral_map (measurable_measure_prodMk_left hs) hY]
  have e2 : ∀ ω, expMeasure lam (Prod.mk (wait (A · ω) (S · ω) n + S n ω) ⁻¹' {p : ℝ × ℝ | p.1 ≤ p.2}) =
      ENNReal.ofReal (Real.exp (-(lam * (wait (A · ω) (S · ω) n + S n ω)))) := fun ω => exp_Ici h0 (hY0 ω)
  simp_rw [e2]
  rw [← h.stay_transform hS0, integral_eq_lintegral_of_nonneg_ae (Eventually.of_forall fun a => (Real.exp_pos _).le)]
  exact (exp_bounded hY hY0 h0.le).aestronglyMeasurable

omit hS0 in
theorem RenewalInput.phi_limit (hlt : ∫ ω, S 0 ω ∂P < ∫ ω, A 0 ω ∂P) {th : ℝ} (ht : 0 ≤ th) :
    Tendsto (phi P A S th) atTop (𝓝 (∫ ω, Real.exp (-(th * top A S ω)) ∂P)) := by
  have he : Measurable fun x : ℝ => Real.exp (-(th * x)) := by fun_prop
  have e : phi P A S th = fun n => ∫ ω, Real.exp (-(th * peak (A · ω) (S · ω) n)) ∂P :=
    funext fun n => ((h.wait_peak n).comp he).integral_eq
  rw [e]
  refine tendsto_integral_of_dominated_convergence (fun _ => 1) (fun n => (he.comp (h.peak_meas n)).aestronglyMeasurable)
    (integrable_const 1) (fun n => Eventually.of_forall fun ω => ?_) ?_
  · rw [Real.norm_eq_abs, Real.abs_exp]
    exact Real.exp_le_one_iff.mpr (by have := mul_nonneg ht (peak_nonneg (A · ω) (S · ω) n); linarith)
  · filter_upwards [h.bounded hlt] with ω hω
    have hc : Continuous fun x : ℝ => Real.exp (-(th * x)) := by fun_prop
    exact (hc.tendsto _).comp (peak_tendsto hω)

omit hS0 in
theorem RenewalInput.top_small (hlt : ∫ ω, S 0 ω ∂P < ∫ ω, A 0 ω ∂P) :
    Tendsto (fun m : ℕ => ∫ ω, Real.exp (-(1 / ((m : ℝ) + 1) * top A S ω)) ∂P) atTop (𝓝 1) := by
  have h1 : Tendsto (fun m : ℕ => ∫ ω, Real.exp (-(1 / ((m : ℝ) + 1) * top A S ω)) ∂P) atTop (𝓝 (∫ _, (1 : ℝ) ∂P)) := by
    refine tendsto_integral_of_dominated_convergence (fun _ => 1) (fun m => ?_) (integrable_const 1) (fun m => ?_) ?_
    · have he : Measurable fun x : ℝ => Real.exp (-(1 / ((m : ℝ) + 1) * x)) := by fun_prop
      exact (he.comp h.top_meas).aestronglyMeasurable
    · filter_upwards [h.bounded hlt] with ω hω
      rw [Real.norm_eq_abs, Real.abs_exp]
      have h2 : 0 ≤ top A S ω := (show (0 : ℝ) ≤ excess (A · ω) (S · ω) 0 by simp [excess]).trans (le_ciSup hω 0)
      exact Real.exp_le_one_iff.mpr (by have := mul_nonneg (by positivity : 0 ≤ 1 / ((m : ℝ) + 1)) h2; linarith)
    · refine Eventually.of_forall fun ω => ?_
      have h2 := ((tendsto_one_div_add_atTop_nhds_zero_nat (𝕜 := ℝ)).mul_const (top A S ω)).neg
      rw [zero_mul, neg_zero] at h2
      have h3 := (Real.continuous_exp.tendsto 0).comp h2
      rw [Real.exp_zero] at h3
      exact h3
  simpa using h1

theorem RenewalInput.service_slope :
    Tendsto (fun m : ℕ => (1 - ∫ ω, Real.exp (-(1 / ((m : ℝ) + 1) * S 0 ω)) ∂P) / (1 / ((m : ℝ) + 1))) atTop
      (𝓝 (∫ ω, S 0 ω ∂P)) := by
  have hS : Measurable (S 0) := h.meas (.inr 0)
  have e : ∀ m : ℕ, (1 - ∫ ω, Real.exp (-(1 / ((m : ℝ) + 1) * S 0 ω)) ∂P) / (1 / ((m : ℝ) + 1)) =
      ∫ ω, (1 - Real.exp (-(1 / ((m : ℝ) + 1) * S 0 ω))) / (1 / ((m : ℝ) + 1)) ∂P := by
    intro m
    rw [integral_div, integral_sub (integrable_const 1) (exp_bounded hS (hS0 0) (by positivity))]
    simp
  simp_rw [e]
  have bd : ∀ (m : ℕ) (s : ℝ), 0 ≤ s → s * Real.exp (-(1 / ((m : ℝ) + 1) * s)) ≤
      (1 - Real.exp (-(1 / ((m : ℝ) + 1) * s))) / (1 / ((m : ℝ) + 1)) ∧
      (1 - Real.exp (-(1 / ((m : ℝ) + 1) * s))) / (1 / ((m : ℝ) + 1)) ≤ s := by
    intro m s hs
    have ht : 0 < 1 / ((m : ℝ) + 1) := by positivity
    rw [le_div_iff₀ ht, div_le_iff₀ ht]
    constructor
    · have h1 := Real.add_one_le_exp (1 / ((m : ℝ) + 1) * s)
      have h2 := Real.exp_pos (-(1 / ((m : ℝ) + 1) * s))
      have h3 : Real.exp (1 / ((m : ℝ) + 1) * s) * Real.exp (-(1 / ((m : ℝ) + 1) * s)) = 1 := by
        rw [← Real.exp_add, add_neg_cancel, Real.exp_zero]
      nlinarith
    · have h1 := Real.add_one_le_exp (-(1 / ((m : ℝ) + 1) * s))
      linarith
  refine tendsto_integral_of_dominated_convergence (S 0) (fun m => ?_) h.svc_int
    (fun m => Eventually.of_forall fun ω => ?_) (Eventually.of_forall fun ω => ?_)
  · have he : Measurable fun x : ℝ => (1 - Real.exp (-(1 / ((m : ℝ) + 1) * x))) / (1 / ((m : ℝ) + 1)) := by fun_prop
    exact (he.comp hS).aestronglyMeasurable
  · obtain ⟨h1, h2⟩ := bd m (S 0 ω) (hS0 0 ω)
    rw [Real.norm_eq_abs, abs_of_nonneg ((mul_nonneg (hS0 0 ω) (Real.exp_pos _).le).trans h1)]
    exact h2
  · have h2 := ((tendsto_one_div_add_atTop_nhds_zero_nat (𝕜 := ℝ)).mul_const (S 0 ω)).neg
    rw [zero_mul, neg_zero] at h2
    have h3 := ((Real.continuous_exp.tendsto 0).comp h2).const_mul (S 0 ω)
    rw [Real.exp_zero, mul_one] at h3
    exact tendsto_of_tendsto_of_tendsto_of_le_of_le h3 tendsto_const_nhds (fun m => (bd m _ (hS0 0 ω)).1)
      fun m => (bd m _ (hS0 0 ω)).2

/-- The equation for the transform of the largest excess. -/
theorem RenewalInput.transform {lam : ℝ} (h0 : 0 < lam) (hA : P.map (A 0) = expMeasure lam)
    (hm : ∫ ω, S 0 ω ∂P < ∫ ω, A 0 ω ∂P) :
    (∀ th, 0 ≤ th → (∫ ω, Real.exp (-(th * top A S ω)) ∂P) * (th - lam * (1 - ∫ ω, Real.exp (-(th * S 0 ω)) ∂P)) =
      th * (1 - lam * ∫ ω, S 0 ω ∂P)) ∧
    (∫ ω, Real.exp (-(lam * top A S ω)) ∂P) * ∫ ω, Real.exp (-(lam * S 0 ω)) ∂P = 1 - lam * ∫ ω, S 0 ω ∂P := by
  have lim : ∀ {th : ℝ}, 0 ≤ th → Tendsto (phi P A S th) atTop (𝓝 (∫ ω, Real.exp (-(th * top A S ω)) ∂P)) :=
    fun ht => h.phi_limit hm ht
  have eq : ∀ th, 0 ≤ th → (∫ ω, Real.exp (-(th * top A S ω)) ∂P) * (th - lam * (1 - ∫ ω, Real.exp (-(th * S 0 ω)) ∂P)) =
      th * ((∫ ω, Real.exp (-(lam * top A S ω)) ∂P) * ∫ ω, Real.exp (-(lam * S 0 ω)) ∂P) := by
    intro th ht
    have h1 := ((tendsto_add_atTop_iff_nat 1).mpr (lim ht)).const_mul (th - lam)
    have h2 := (((lim h0.le).mul_const (∫ ω, Real.exp (-(lam * S 0 ω)) ∂P)).const_mul th).sub
      (((lim ht).mul_const (∫ ω, Real.exp (-(th * S 0 ω)) ∂P)).const_mul lam)
    have := tendsto_nhds_unique (h1.congr fun n => h.phi_step hS0 h0 hA ht n) h2
    linarith
  have hk : (∫ ω, Real.exp (-(lam * top A S ω)) ∂P) * ∫ ω, Real.exp (-(lam * S 0 ω)) ∂P = 1 - lam * ∫ ω, S 0 ω ∂P := by
    have h1 := (h.top_small hm).mul (((h.service_slope hS0).const_mul lam).const_sub 1)
    rw [one_mul] at h1
    refine tendsto_nhds_unique (tendsto_const_nhds.congr fun m => ?_) h1
    have ht : 0 < 1 / ((m : ℝ) + 1) := by positivity
    have := eq _ ht.le
    have e : ∀ a b d t : ℝ, 0 < t → a * (t - lam * (1 - b)) = t * d → d = a * (1 - lam * ((1 - b) / t)) := by
      intro a b d t ht h
      have : d = a * (t - lam * (1 - b)) / t := by rw [h]; field_simp
      rw [this]
      field_simp
    exact e _ _ _ _ ht this
  exact ⟨fun th ht => by rw [eq th ht, hk], hk⟩

omit hS0 in
/-- C142: let times between arrivals be exponential of rate `lam`, and services independent of any one law, with mean `σ` and
`lam * σ < 1`. The chance that the `n`-th agent does not wait tends to `1 - lam * σ`; and the mean of
`exp (-th * waiting time)` tends to `(1 - lam * σ) * th / (th - lam * (1 - β))`, `β` the mean of `exp (-th * service)`, for
all `th > 0` (formula of Pollaczek and Khinchine). -/
theorem C142_poisson {lam : ℝ} (h0 : 0 < lam) (hA : P.map (A 0) = expMeasure lam) (hlt : lam * ∫ ω, S 0 ω ∂P < 1)
    {c : Ω → QCfg (WithTop ℝ)} (hc : ∀ ω, OneServer (c ω) (A · ω) (S · ω)) :
    ∃ W : ℕ → Ω → ℝ, (∀ n, Measurable (W n)) ∧ (∀ n ω, 0 ≤ W n ω) ∧ Waits c W ∧
      Tendsto (fun n => P.real {ω | W n ω = 0}) atTop (𝓝 (1 - lam * ∫ ω, S 0 ω ∂P)) ∧
      ∀ th, 0 < th → Tendsto (fun n => ∫ ω, Real.exp (-(th * W n ω)) ∂P) atTop
        (𝓝 ((1 - lam * ∫ ω, S 0 ω ∂P) * th / (th - lam * (1 - ∫ ω, Real.exp (-(th * S 0 ω)) ∂P)))) := by
  have hS0 : ∀ i ω, 0 ≤ S i ω := fun i ω => (hc ω).svc_nonneg i
  have mA : ∫ ω, A 0 ω ∂P = 1 / lam := by
    rw [← exp_mean h0, ← hA, integral_map (φ := A 0) (f := fun x => x) (h.meas (.inl 0)).aemeasurable aestronglyMeasurable_id]
  have hm : ∫ ω, S 0 ω ∂P < ∫ ω, A 0 ω ∂P := by
    rw [mA, lt_div_iff₀ h0]
    linarith
  have lim : ∀ {th : ℝ}, 0 ≤ th → Tendsto (phi P A S th) atTop (𝓝 (∫ ω, Real.exp (-(th * top A S ω)) ∂P)) :=
    fun ht => h.phi_limit hm ht
  obtain ⟨eq, hk⟩ := h.transform hS0 h0 hA hm
  refine ⟨fun n ω => wait (A · ω) (S · ω) n, h.wait_meas, fun _ _ => wait_nonneg _ _ _, waits hc, ?_, fun th ht => ?_⟩
  · rw [← tendsto_add_atTop_iff_nat 1, ← hk]
    exact ((lim h0.le).mul_const _).congr fun n => (h.no_wait hS0 h0 hA n).symm
  · have h1 := eq th ht.le
    have hne : th - lam * (1 - ∫ ω, Real.exp (-(th * S 0 ω)) ∂P) ≠ 0 := by
      intro h2
      rw [h2, mul_zero] at h1
      have : 0 < th * (1 - lam * ∫ ω, S 0 ω ∂P) := mul_pos ht (by linarith)
      linarith
    have : (1 - lam * ∫ ω, S 0 ω ∂P) * th / (th - lam * (1 - ∫ ω, Real.exp (-(th * S 0 ω)) ∂P)) =
        ∫ ω, Real.exp (-(th * top A S ω)) ∂P := by
      rw [div_eq_iff hne, h1]
      ring
    rw [this]
    exact lim ht.le

end

/-- Exponential times of mean 2 between arrivals and services of 0 or 3: in the long run one agent out of four does not wait. -/
example : ∃ W : ℕ → (ℕ ⊕ ℕ → ℝ) → ℝ,
    Waits (fun ω : ℕ ⊕ ℕ → ℝ => givenQueue (fun i => |ω (.inl i)|) fun i => |ω (.inr i)|) W ∧
    Tendsto (fun n => (Measure.infinitePi (laws (expMeasure (1 / 2)) coin)).real {ω | W n ω = 0}) atTop (𝓝 (1 / 4)) := by
  have hp : (0 : ℝ) < 1 / 2 := by norm_num
  have := isProbabilityMeasure_expMeasure hp
  obtain ⟨h1, -, h3, h4⟩ := C133_met (expMeasure (1 / 2)) coin (exp_int hp) coin_int
  rw [coin_mean] at h3
  have law : (Measure.infinitePi (laws (expMeasure (1 / 2)) coin)).map (fun ω => |ω (.inl 0)|) = expMeasure (1 / 2) := by
    have abs1 : Measurable fun x : ℝ => |x| := by fun_prop
    have e2 : (fun ω : ℕ ⊕ ℕ → ℝ => |ω (.inl 0)|) = (fun y : ℝ => |y|) ∘ fun ω => ω (.inl 0) := rfl
    have e3 : (Measure.infinitePi (laws (expMeasure (1 / 2)) coin)).map (fun ω => ω (.inl 0)) = expMeasure (1 / 2) :=
      Measure.infinitePi_map_eval (laws (expMeasure (1 / 2)) coin) (.inl 0)
    rw [e2, ← Measure.map_map abs1 (measurable_pi_apply _), e3, Measure.map_congr (g := id)]
    · exact Measure.map_id
    · filter_upwards [exp_nonneg hp] with y hy
      exact abs_of_nonneg hy
  obtain ⟨W, -, -, g1, g2, -⟩ := C142_poisson h1 hp law (by rw [h3]; norm_num) h4
  refine ⟨W, g1, ?_⟩
  rw [h3] at g2
  norm_num at g2 ⊢
  exact g2

end Verif.QueueSpec
