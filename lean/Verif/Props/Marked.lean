import Verif.Props.NetPoisson
import Mathlib.MeasureTheory.Measure.FiniteMeasureExt
import Mathlib.Probability.Independence.InfinitePi
import Mathlib.Probability.Independence.Integration

/-!
# A Poisson process with marks

Products over the agents that come from outside, each with a mark of its own (its service time): support for C121.
-/

namespace Verif.ThinSpec

open Verif MeasureTheory Set ProbabilityTheory Thin
open scoped ENNReal Topology BoundedContinuousFunction

section thin

variable {r : ℝ} {lam : ℝ → ℝ} {u : ℝ}

open Classical in
/-- The factor of the `n`-th candidate: `g` at its time, if it is accepted and not after `u`. -/
noncomputable def factor (r : ℝ) (lam : ℝ → ℝ) (u : ℝ) (g : ℝ → ℝ≥0∞) (t : ℝ) (ω : Draws) (n : ℕ) : ℝ≥0∞ :=
  if cand r ω t n ≤ u ∧ acc r lam ω t n then g (cand r ω t n) else 1

theorem measurable_factor (hl : Measurable lam) {g : ℝ → ℝ≥0∞} (hg : Measurable g) (n : ℕ) :
    Measurable fun p : ℝ × Draws => factor r lam u g p.1 p.2 n := by
  unfold factor
  refine Measurable.ite (MeasurableSet.inter (s₁ := {p : ℝ × Draws | cand r p.2 p.1 n ≤ u}) ?_ (measurableSet_acc hl n))
    (hg.comp (measurable_cand n)) measurable_const
  exact measurableSet_le (measurable_cand n) measurable_const

theorem measurable_factors (hl : Measurable lam) {g : ℝ → ℝ≥0∞} (hg : Measurable g) (M : ℕ) :
    Measurable fun p : ℝ × Draws => ∏ n ∈ Finset.range M, factor r lam u g p.1 p.2 n :=
  Finset.measurable_prod _ fun n _ => measurable_factor hl hg n

/-- Integrating over the first pair of draws and then over the others. -/
theorem lintegral_first {F : Draws → ℝ≥0∞} (hF : Measurable F) :
    ∫⁻ ω, F ω ∂law = ∫⁻ e, (∫⁻ v in Ico (0 : ℝ) 1, (∫⁻ ω, F (cons (e, v) ω) ∂law)) ∂expMeasure 1 := by
  have hm := hF.comp measurable_cons
  conv_lhs => rw [← map_cons, lintegral_map hF measurable_cons]
  have h1 := lintegral_prod (μ := drawLaw) (ν := law) _ hm.aemeasurable
  have h2 := lintegral_prod (μ := expMeasure 1) (ν := volume.restrict (Ico (0 : ℝ) 1)) _
    (Measurable.lintegral_prod_right' (ν := law) hm).aemeasurable
  exact h1.trans h2

theorem factors_step (hl : Measurable lam) {g : ℝ → ℝ≥0∞} (hg : Measurable g) (M : ℕ) (t : ℝ) :
    ∫⁻ ω, ∏ n ∈ Finset.range (M + 1), factor r lam u g t ω n ∂law =
      ∫⁻ e, (∫⁻ v in Ico (0 : ℝ) 1, if t + 1 / r * e ≤ u ∧ r * v ≤ lam (t + 1 / r * e) then g (t + 1 / r * e) else 1) *
        (∫⁻ ω, ∏ n ∈ Finset.range M, factor r lam u g (t + 1 / r * e) ω n ∂law) ∂expMeasure 1 := by
  have hm : Measurable fun ω : Draws => ∏ n ∈ Finset.range (M + 1), factor r lam u g t ω n :=
    (measurable_factors hl hg (M + 1)).comp measurable_prodMk_left
  rw [lintegral_first hm]
  refine lintegral_congr fun e => ?_
  rw [← lintegral_mul_const'' _ ?_]
  · refine lintegral_congr fun v => ?_
    have hm' : Measurable fun ω : Draws => ∏ n ∈ Finset.range M, factor r lam u g (t + 1 / r * e) ω n :=
      (measurable_factors hl hg M).comp measurable_prodMk_left
    rw [← lintegral_const_mul _ hm']
    refine lintegral_congr fun ω => ?_
    have e0 : factor r lam u g t (cons (e, v) ω) 0 =
        if t + 1 / r * e ≤ u ∧ r * v ≤ lam (t + 1 / r * e) then g (t + 1 / r * e) else 1 := by
      unfold factor
      simp only [cand_cons_zero, acc_cons_zero]
    have e1 : ∀ n, factor r lam u g t (cons (e, v) ω) (n + 1) = factor r lam u g (t + 1 / r * e) ω n := fun n => by
      classical
      unfold factor
      exact if_congr (by rw [cand_cons_succ, acc_cons_succ]) (by rw [cand_cons_succ]) rfl
    rw [Finset.prod_range_succ', mul_comm, e0]
    simp only [e1]
  · refine (Measurable.ite ?_ measurable_const measurable_const).aemeasurable
    by_cases h : t + 1 / r * e ≤ u
    · simp only [h, true_and]
      exact measurableSet_le (by fun_prop) measurable_const
    · simp only [h, false_and]
      exact MeasurableSet.const _

/-- Products with `γ` at the accepted candidates have the mean of products with zero at the candidates accepted for the
rate `lam (1 - γ)`. -/
theorem factors_eq (h : Rate lam r) {γ : ℝ → ℝ} (hγ : Measurable γ) (h0 : ∀ s, 0 ≤ γ s) (h1 : ∀ s, γ s ≤ 1) (M : ℕ) (t : ℝ) :
    ∫⁻ ω, ∏ n ∈ Finset.range M, factor r lam u (fun s => ENNReal.ofReal (γ s)) t ω n ∂law =
      ∫⁻ ω, ∏ n ∈ Finset.range M, factor r (fun s => lam s * (1 - γ s)) u (fun _ => 0) t ω n ∂law := by
  induction M generalizing t with
  | zero => simp
  | succ M ih =>
    rw [factors_step h.meas (by fun_prop), factors_step (lam := fun s => lam s * (1 - γ s)) (h.meas.mul (measurable_const.sub hγ)) measurable_const]
    refine lintegral_congr fun e => ?_
    rw [ih]
    congr 1
    set s := t + 1 / r * e
    have hr := h.pos
    by_cases hs : s ≤ u
    · simp only [hs, true_and]
      have e1 : ∀ (v x : ℝ), r * v ≤ x ↔ v ≤ x / r := fun v x => by rw [le_div_iff₀' hr]
      simp only [e1]
      have hp0 : 0 ≤ lam s / r := div_nonneg (h.nonneg s) hr.le
      have hp1 : lam s / r ≤ 1 := (div_le_one hr).mpr (h.le s)
      have g0 := h0 s
      have g1 := h1 s
      have e2 : lam s * (1 - γ s) / r = lam s / r * (1 - γ s) := by ring
      have hq0 : 0 ≤ lam s / r * (1 - γ s) := mul_nonneg hp0 (by linarith)
      have hq1 : lam s / r * (1 - γ s) ≤ 1 := by nlinarith
      rw [lintegral_test hp0 hp1, e2, lintegral_test hq0 hq1, mul_zero, zero_add, mul_one, mul_one,
        ← ENNReal.ofReal_mul hp0, ← ENNReal.ofReal_add (by positivity) (by linarith)]
      congr 1
      ring
    · simp only [hs, false_and, if_false]

/-- The products over more candidates are smaller. -/
theorem factors_anti {f : ℕ → ℝ≥0∞} (h1 : ∀ n, f n ≤ 1) : Antitone fun M => ∏ n ∈ Finset.range M, f n := by
  refine antitone_nat_of_succ_le fun M => ?_
  rw [Finset.prod_range_succ]
  exact mul_le_of_le_one_right' (h1 M)

theorem factor_le_one {g : ℝ → ℝ≥0∞} (hg : ∀ s, g s ≤ 1) (t : ℝ) (ω : Draws) (n : ℕ) : factor r lam u g t ω n ≤ 1 := by
  unfold factor
  split
  · exact hg _
  · exact le_rfl

open Classical in
/-- The product with zero at the accepted candidates says whether there are any. -/
theorem iInf_zero (hr : 0 < r) {t : ℝ} {ω : Draws} (hp : Pos ω) :
    ⨅ M, ∏ n ∈ Finset.range M, factor r lam u (fun _ => 0) t ω n =
      {ω | (arrivals r lam ω t t u).encard = 0}.indicator 1 ω := by
  by_cases h : (arrivals r lam ω t t u).encard = 0
  · rw [indicator_of_mem (by exact h)]
    have hno := (no_hit_iff hr hp).mp h
    have : ∀ n, factor r lam u (fun _ => 0) t ω n = 1 := fun n => by
      unfold factor
      rw [if_neg]
      rintro ⟨h1, h2⟩
      exact hno n h1 h2
    simp [this]
  · rw [indicator_of_notMem (by exact h)]
    rw [no_hit_iff hr hp] at h
    push Not at h
    obtain ⟨n, h1, h2⟩ := h
    refine le_antisymm ((iInf_le _ (n + 1)).trans (le_of_eq ?_)) zero_le
    rw [Finset.prod_range_succ]
    unfold factor
    rw [if_pos (⟨h1, h2⟩ : cand r ω t n ≤ u ∧ acc r lam ω t n), mul_zero]

/-- The mean of the product of `γ` over the arrivals until `u`. -/
theorem mean_factors (h : Rate lam r) {γ : ℝ → ℝ} (hγ : Measurable γ) (h0 : ∀ s, 0 ≤ γ s) (h1 : ∀ s, γ s ≤ 1) {t : ℝ} (ht : t ≤ u) :
    ⨅ M, ∫⁻ ω, ∏ n ∈ Finset.range M, factor r lam u (fun s => ENNReal.ofReal (γ s)) t ω n ∂law =
      ENNReal.ofReal (Real.exp (-∫ s in t..u, lam s * (1 - γ s))) := by
  have hR : Rate (fun s => lam s * (1 - γ s)) r := {
    pos := h.pos
    meas := h.meas.mul (measurable_const.sub hγ)
    nonneg := fun s => mul_nonneg (h.nonneg s) (by have := h1 s; linarith)
    le := fun s => by have := h0 s; have := h1 s; have := h.nonneg s; have := h.le s; nlinarith }
  simp only [factors_eq h hγ h0 h1]
  have hm0 : ∀ M, Measurable fun ω : Draws => ∏ n ∈ Finset.range M, factor r (fun s => lam s * (1 - γ s)) u (fun _ => 0) t ω n :=
    fun M => (measurable_factors hR.meas measurable_const M).comp measurable_prodMk_left
  rw [← lintegral_iInf hm0 (fun M M' hM ω => by
      exact factors_anti (fun n => factor_le_one (fun _ => zero_le) t ω n) hM) (by simp)]
  have hm : MeasurableSet {ω | (arrivals r (fun s => lam s * (1 - γ s)) ω t t u).encard = 0} := measurableSet_arrivals hR.meas t t u 0
  have : ∫⁻ ω, ⨅ M, ∏ n ∈ Finset.range M, factor r (fun s => lam s * (1 - γ s)) u (fun _ => 0) t ω n ∂law =
      ∫⁻ ω, {ω | (arrivals r (fun s => lam s * (1 - γ s)) ω t t u).encard = 0}.indicator 1 ω ∂law := by
    refine lintegral_congr_ae ?_
    filter_upwards [ae_pos] with ω hω
    exact iInf_zero h.pos hω
  rw [this, lintegral_indicator_one hm, ← count_zero hR ht, measureReal_def, ENNReal.ofReal_toReal (measure_ne_top _ _)]

end thin

section marks

variable {S : Type*} [MeasurableSpace S] {ν : Measure S} [IsProbabilityMeasure ν] {r : ℝ} {lam : ℝ → ℝ} {u : ℝ}

open Classical in
/-- The number of candidates accepted before the `n`-th. -/
noncomputable def before (r : ℝ) (lam : ℝ → ℝ) (ω : Draws) (n : ℕ) : ℕ := Nat.count (acc r lam ω 0) n

open Classical in
/-- The factor of the `n`-th candidate: `g` at its time and its mark, if it is accepted and not after `u`. -/
noncomputable def markFactor (r : ℝ) (lam : ℝ → ℝ) (u : ℝ) (g : ℝ × S → ℝ≥0∞) (p : Draws × (ℕ → S)) (n : ℕ) : ℝ≥0∞ :=
  if cand r p.1 0 n ≤ u ∧ acc r lam p.1 0 n then g (cand r p.1 0 n, p.2 (before r lam p.1 n)) else 1

theorem measurable_cand0 (n : ℕ) : Measurable fun ω : Draws => cand r ω 0 n :=
  (measurable_cand n).comp (measurable_prodMk_left (x := (0 : ℝ)))

theorem measurableSet_acc0 (hl : Measurable lam) (n : ℕ) : MeasurableSet {ω : Draws | acc r lam ω 0 n} :=
  measurable_prodMk_left (x := (0 : ℝ)) (measurableSet_acc hl n)

theorem measurable_before (hl : Measurable lam) (n : ℕ) : Measurable fun ω : Draws => before r lam ω n := by
  classical
  induction n with
  | zero => simp [before]
  | succ n ih =>
    simp only [before, Nat.count_succ] at ih ⊢
    exact ih.add (Measurable.ite (measurableSet_acc0 hl n) measurable_const measurable_const)

theorem measurable_mark (hl : Measurable lam) (n : ℕ) :
    Measurable fun p : Draws × (ℕ → S) => p.2 (before r lam p.1 n) := by
  have : Measurable fun q : ℕ × (ℕ → S) => q.2 q.1 :=
    measurable_from_prod_countable_right fun i => measurable_pi_apply i
  exact this.comp (((measurable_before hl n).comp measurable_fst).prodMk measurable_snd)

theorem measurable_markFactor (hl : Measurable lam) {g : ℝ × S → ℝ≥0∞} (hg : Measurable g) (n : ℕ) :
    Measurable fun p : Draws × (ℕ → S) => markFactor r lam u g p n := by
  unfold markFactor
  refine Measurable.ite (MeasurableSet.inter (s₁ := {p : Draws × (ℕ → S) | cand r p.1 0 n ≤ u}) ?_ (measurable_fst (measurableSet_acc0 hl n)))
    (hg.comp (((measurable_cand0 n).comp measurable_fst).prodMk (measurable_mark hl n))) measurable_const
  exact measurableSet_le ((measurable_cand0 n).comp measurable_fst) measurable_const

/-- Integrating over the marks only. -/
theorem lintegral_marks {g : ℝ × S → ℝ≥0∞} (hg : Measurable g) (M : ℕ) (ω : Draws) :
    ∫⁻ σ, ∏ n ∈ Finset.range M, markFactor r lam u g (ω, σ) n ∂(Measure.infinitePi fun _ : ℕ => ν) =
      ∏ n ∈ Finset.range M, factor r lam u (fun s => ∫⁻ x, g (s, x) ∂ν) 0 ω n := by
  classical
  set A := (Finset.range M).filter fun n => cand r ω 0 n ≤ u ∧ acc r lam ω 0 n with hA
  have e1 : ∀ σ : ℕ → S, ∏ n ∈ Finset.range M, markFactor r lam u g (ω, σ) n =
      ∏ n : A, g (cand r ω 0 n, σ (before r lam ω n)) := fun σ => by
    rw [Finset.prod_coe_sort A (fun n => g (cand r ω 0 n, σ (before r lam ω n))), hA, Finset.prod_filter]
    refine Finset.prod_congr rfl fun n _ => ?_
    unfold markFactor
    split <;> rfl
  have e2 : ∏ n ∈ Finset.range M, factor r lam u (fun s => ∫⁻ x, g (s, x) ∂ν) 0 ω n =
      ∏ n : A, ∫⁻ x, g (cand r ω 0 n, x) ∂ν := by
    rw [Finset.prod_coe_sort A (fun n => ∫⁻ x, g (cand r ω 0 n, x) ∂ν), hA, Finset.prod_filter]
    refine Finset.prod_congr rfl fun n _ => ?_
    unfold factor
    split <;> rfl
  simp only [e1]
  rw [e2]
  have hinj : Function.Injective fun n : A => before r lam ω n := by
    rintro ⟨m, hm⟩ ⟨n, hn⟩ he
    rw [hA, Finset.mem_filter] at hm hn
    exact Subtype.ext (Nat.count_injective hm.2.2 hn.2.2 he)
  have hi : iIndepFun (fun (n : A) (σ : ℕ → S) => g (cand r ω 0 n, σ (before r lam ω n))) (Measure.infinitePi fun _ : ℕ => ν) := by
    have h1 : iIndepFun (fun (i : ℕ) (σ : ℕ → S) => σ i) (Measure.infinitePi fun _ : ℕ => ν) :=
      iIndepFun_infinitePi (X := fun _ x => x) (fun _ => measurable_id)
    have h2 := h1.precomp hinj
    exact h2.comp (fun (n : A) x => g (cand r ω 0 n, x)) fun n => hg.comp measurable_prodMk_left
  rw [lintegral_prod_eq_prod_lintegral_of_indepFun Finset.univ _ hi fun n =>
    (hg.comp measurable_prodMk_left).comp (measurable_pi_apply _)]
  refine Finset.prod_congr rfl fun n _ => ?_
  have hmp := measurePreserving_eval_infinitePi (fun _ : ℕ => ν) (before r lam ω n)
  have := hmp.lintegral_comp (f := fun x => g (cand r ω 0 n, x)) (hg.comp measurable_prodMk_left)
  exact this

/-- The law of the draws and the marks: all independent. -/
noncomputable def markedLaw (ν : Measure S) [IsProbabilityMeasure ν] : Measure (Draws × (ℕ → S)) :=
  law.prod (Measure.infinitePi fun _ : ℕ => ν)

instance : IsProbabilityMeasure (markedLaw ν) := by unfold markedLaw; infer_instance

/-- The mean of the product of `γ` over the arrivals until `u` with their marks. -/
theorem mean_marks (h : Rate lam r) {γ : ℝ × S → ℝ} (hγ : Measurable γ) (h0 : ∀ s, 0 ≤ γ s) (h1 : ∀ s, γ s ≤ 1) (hu : 0 ≤ u) :
    ∫⁻ p, ⨅ M, ∏ n ∈ Finset.range M, markFactor r lam u (fun x => ENNReal.ofReal (γ x)) p n ∂markedLaw ν =
      ENNReal.ofReal (Real.exp (-∫ s in (0 : ℝ)..u, lam s * (1 - ∫ x, γ (s, x) ∂ν))) := by
  have hg : Measurable fun x : ℝ × S => ENNReal.ofReal (γ x) := by fun_prop
  have hle : ∀ p n, markFactor r lam u (fun x => ENNReal.ofReal (γ x)) p n ≤ 1 := fun p n => by
    unfold markFactor
    split
    · exact ENNReal.ofReal_le_one.mpr (h1 _)
    · exact le_rfl
  have hm := fun M => Finset.measurable_prod (Finset.range M) fun n _ => measurable_markFactor (r := r) (u := u) h.meas hg n
  rw [lintegral_iInf hm (fun M M' hM p => factors_anti (hle p) hM) (by simp)]
  have hint : ∀ s, Integrable (fun x => γ (s, x)) ν := fun s =>
    Integrable.of_bound (C := 1) (hγ.comp measurable_prodMk_left).aestronglyMeasurable (ae_of_all _ fun x => by
      rw [Real.norm_of_nonneg (h0 _)]; exact h1 _)
  have hG : ∀ s, ∫⁻ x, ENNReal.ofReal (γ (s, x)) ∂ν = ENNReal.ofReal (∫ x, γ (s, x) ∂ν) := fun s =>
    (ofReal_integral_eq_lintegral_ofReal (hint s) (ae_of_all _ fun x => h0 _)).symm
  have hGm : Measurable fun s => ∫ x, γ (s, x) ∂ν := (hγ.stronglyMeasurable.integral_prod_right' (ν := ν)).measurable
  rw [← mean_factors h hGm (fun s => integral_nonneg fun x => h0 _) (fun s => by
    calc ∫ x, γ (s, x) ∂ν ≤ ∫ _, (1 : ℝ) ∂ν := integral_mono (hint s) (integrable_const 1) fun x => h1 _
      _ = 1 := by simp) hu]
  refine iInf_congr fun M => ?_
  rw [markedLaw, lintegral_prod _ (hm M).aemeasurable]
  refine lintegral_congr fun ω => ?_
  have := lintegral_marks (ν := ν) (r := r) (lam := lam) (u := u) hg M ω
  simp only [hG] at this
  exact this

end marks

section pgf

variable {ι : Type*} [Fintype ι]

/-- The function `k ↦ ∏ zᵢ ^ kᵢ`, for `z` in the unit cube. -/
noncomputable def gen (z : ι → unitInterval) : (ι → ℕ) →ᵇ ℝ :=
  BoundedContinuousFunction.ofNormedAddCommGroup (fun k => ∏ i, (z i : ℝ) ^ k i) (by fun_prop) 1 fun k => by
    rw [norm_prod]
    refine Finset.prod_le_one (fun i _ => norm_nonneg _) fun i _ => ?_
    rw [norm_pow, Real.norm_of_nonneg (z i).2.1]
    exact pow_le_one₀ (z i).2.1 (z i).2.2

theorem gen_apply (z : ι → unitInterval) (k : ι → ℕ) : gen z k = ∏ i, (z i : ℝ) ^ k i := rfl

theorem gen_mul (z w : ι → unitInterval) : gen z * gen w = gen (z * w) := by
  ext k
  simp [gen_apply, mul_pow, Finset.prod_mul_distrib]

theorem gen_one : gen (1 : ι → unitInterval) = 1 := by
  ext k
  simp [gen_apply]

/-- The linear combinations of these functions. -/
noncomputable def genAlg : StarSubalgebra ℝ ((ι → ℕ) →ᵇ ℝ) where
  toSubalgebra := (Submodule.span ℝ (range (gen (ι := ι)))).toSubalgebra
    (Submodule.subset_span ⟨1, gen_one⟩) fun x y hx hy => by
      have h := Submodule.mul_mem_mul hx hy
      rw [Submodule.span_mul_span] at h
      refine Submodule.span_mono ?_ h
      rintro f ⟨_, ⟨z, rfl⟩, _, ⟨w, rfl⟩, rfl⟩
      exact ⟨z * w, (gen_mul z w).symm⟩
  star_mem' {f} hf := by
    have : star f = f := by ext k; simp
    rw [this]; exact hf

/-- The generating function determines the law. -/
theorem law_of_gen {P Q : Measure (ι → ℕ)} [IsFiniteMeasure P] [IsFiniteMeasure Q]
    (h : ∀ z : ι → unitInterval, ∫ k, ∏ i, (z i : ℝ) ^ k i ∂P = ∫ k, ∏ i, (z i : ℝ) ^ k i ∂Q) : P = Q := by
  classical
  refine ext_of_forall_mem_subalgebra_integral_eq_of_polish (𝕜 := ℝ) (A := genAlg) ?_ ?_
  · intro k k' hk
    obtain ⟨i, hi⟩ := Function.ne_iff.mp hk
    let z : ι → unitInterval := fun j => if j = i then ⟨1 / 2, by norm_num, by norm_num⟩ else 1
    refine ⟨fun x => gen z x, ⟨gen z, ⟨gen z, Submodule.subset_span ⟨z, rfl⟩, ?_⟩, ?_⟩, ?_⟩
    · rfl
    · rfl
    · have hz : ∀ k : ι → ℕ, gen z k = (1 / 2 : ℝ) ^ k i := fun k => by
        rw [gen_apply, Finset.prod_eq_single i]
        · simp [z]
        · intro j _ hj; simp [z, hj]
        · simp
      simp only [hz]
      intro he
      exact hi (pow_right_injective₀ (by norm_num) (by norm_num) he)
  · intro g hg
    have hg' : g ∈ Submodule.span ℝ (range (gen (ι := ι))) := hg
    induction hg' using Submodule.span_induction with
    | mem x hx => obtain ⟨z, rfl⟩ := hx; exact h z
    | zero => simp
    | add x y hx hy ihx ihy =>
      have e : ∀ μ : Measure (ι → ℕ), IsFiniteMeasure μ → ∫ k, (x + y) k ∂μ = ∫ k, x k ∂μ + ∫ k, y k ∂μ := fun μ _ =>
        integral_add (x.integrable μ) (y.integrable μ)
      rw [e P inferInstance, e Q inferInstance, ihx hx, ihy hy]
    | smul a x hx ih =>
      have e : ∀ μ : Measure (ι → ℕ), ∫ k, (a • x) k ∂μ = a * ∫ k, x k ∂μ := fun μ => integral_const_mul a _
      rw [e, e, ih hx]

/-- The generating function of independent Poisson variables. -/
theorem gen_poisson (Λ : ι → NNReal) (z : ι → ℝ) :
    ∫ k, ∏ i, (z i) ^ k i ∂(Measure.pi fun i => poissonMeasure (Λ i)) = Real.exp (-∑ i, (1 - z i) * Λ i) := by
  rw [integral_fintype_prod_eq_prod (f := fun i (k : ℕ) => z i ^ k), ← Finset.sum_neg_distrib, Real.exp_sum]
  refine Finset.prod_congr rfl fun i _ => ?_
  rw [integral_poissonMeasure]
  have h := NormedSpace.expSeries_div_hasSum_exp (𝔸 := ℝ) (z i * Λ i)
  rw [← Real.exp_eq_exp_ℝ] at h
  have h2 := h.mul_left (Real.exp (-Λ i))
  rw [← Real.exp_add] at h2
  have e : ∀ n : ℕ, (Real.exp (-Λ i) * (Λ i : ℝ) ^ n / n.factorial) • z i ^ n = Real.exp (-Λ i) * ((z i * Λ i) ^ n / n.factorial) := fun n => by
    rw [smul_eq_mul, mul_pow]; ring
  simp only [e]
  rw [h2.tsum_eq]
  congr 1; ring

end pgf

section colours

variable {S : Type*} [MeasurableSpace S] {ν : Measure S} [IsProbabilityMeasure ν] {r : ℝ} {rate : ℝ → ℝ} {u : ℝ}
variable {ι : Type*} [Fintype ι] {K : ι → Set (ℝ × S)}

/-- The calls of `poisson_random_measure`, the first at time 0 and each of the others at the time returned by the one
before, that return a time not after `u` which together with the mark of the call is in `K`. -/
def marked (r : ℝ) (rate : ℝ → ℝ) (u : ℝ) (K : Set (ℝ × S)) (ω : Draws) (σ : ℕ → S) : Set ℕ :=
  {j | ∃ m x, Arrives r rate ω 0 (j + 1) m x ∧ x ≤ u ∧ (x, σ j) ∈ K}

/-- The accepted candidates not after `u` with such marks. -/
def hitsIn (r : ℝ) (rate : ℝ → ℝ) (u : ℝ) (K : Set (ℝ × S)) (p : Draws × (ℕ → S)) : Set ℕ :=
  {n | cand r p.1 0 n ≤ u ∧ acc r rate p.1 0 n ∧ (cand r p.1 0 n, p.2 (before r rate p.1 n)) ∈ K}

omit [MeasurableSpace S] in
theorem marked_eq (K : Set (ℝ × S)) (ω : Draws) (σ : ℕ → S) :
    marked r rate u K ω σ = before r rate ω '' hitsIn r rate u K (ω, σ) := by
  classical
  ext j
  simp only [marked, hitsIn, before, mem_ofPred_eq, mem_image, arrives_iff]
  constructor
  · rintro ⟨m, x, ⟨rfl, hj, hacc⟩, hb, hK⟩
    cases m with
    | zero => simp at hj
    | succ n =>
      have := hacc n rfl
      rw [Nat.count_succ, if_pos this] at hj
      have hj' := Nat.succ_injective hj
      exact ⟨n, ⟨hb, this, by rw [hj']; exact hK⟩, hj'⟩
  · rintro ⟨n, ⟨hb, hacc, hK⟩, rfl⟩
    refine ⟨n + 1, _, ⟨rfl, ?_, fun i hi => by cases hi; exact hacc⟩, hb, hK⟩
    rw [Nat.count_succ, if_pos hacc]

omit [MeasurableSpace S] in
theorem marked_ncard (K : Set (ℝ × S)) (p : Draws × (ℕ → S)) :
    (marked r rate u K p.1 p.2).ncard = (hitsIn r rate u K p).ncard := by
  classical
  rw [marked_eq, InjOn.ncard_image]
  intro m hm n hn he
  exact Nat.count_injective hm.2.1 hn.2.1 he

theorem measurable_ncard {X : Type*} [MeasurableSpace X] {A : X → Set ℕ} (h : ∀ n, MeasurableSet {x | n ∈ A x}) :
    Measurable fun x => (A x).ncard := by
  refine measurable_to_countable' fun k => ?_
  have hk := measurableSet_encard h
  by_cases h0 : k = 0
  · have : (fun x => (A x).ncard) ⁻¹' {k} = {x | (A x).encard = (0 : ℕ)} ∪ (⋃ j : ℕ, {x | (A x).encard = j})ᶜ := by
      ext x
      simp only [mem_preimage, mem_singleton_iff, mem_union, mem_ofPred_eq, mem_compl_iff, mem_iUnion, not_exists, h0]
      constructor
      · intro hx
        by_cases hf : (A x).Finite
        · left; rw [← hf.cast_ncard_eq, hx]
        · right
          intro j hj
          exact hf (finite_of_encard_eq_coe hj)
      · rintro (hx | hx)
        · rw [ncard, hx]; rfl
        · by_contra hne
          have hf : (A x).Finite := finite_of_ncard_ne_zero hne
          exact hx _ hf.cast_ncard_eq.symm
    rw [this]
    exact (hk 0).union (MeasurableSet.iUnion hk).compl
  · have : (fun x => (A x).ncard) ⁻¹' {k} = {x | (A x).encard = k} := by
      ext x
      simp only [mem_preimage, mem_singleton_iff, mem_ofPred_eq]
      constructor
      · intro hx
        have hf : (A x).Finite := finite_of_ncard_ne_zero (by omega)
        rw [← hf.cast_ncard_eq, hx]
      · intro hx; rw [ncard, hx]; rfl
    rw [this]
    exact hk k

theorem measurable_marked (hl : Measurable rate) {K : Set (ℝ × S)} (hK : MeasurableSet K) :
    Measurable fun p : Draws × (ℕ → S) => (marked r rate u K p.1 p.2).ncard := by
  simp only [marked_ncard]
  refine measurable_ncard fun n => ?_
  refine MeasurableSet.inter (s₁ := {p : Draws × (ℕ → S) | cand r p.1 0 n ≤ u}) ?_
    (MeasurableSet.inter (s₁ := {p : Draws × (ℕ → S) | acc r rate p.1 0 n}) (measurable_fst (measurableSet_acc0 hl n)) ?_)
  · exact measurableSet_le ((measurable_cand0 n).comp measurable_fst) measurable_const
  · exact (((measurable_cand0 n).comp measurable_fst).prodMk (measurable_mark hl n)) hK

theorem ae_finite_marked (h : Rate rate r) (hu : 0 ≤ u) : ∀ᵐ ω ∂law, {n | cand r ω 0 n ≤ u ∧ acc r rate ω 0 n}.Finite := by
  classical
  have hd : Pairwise (Function.onFun Disjoint fun k' : ℕ => {ω | (arrivals r rate ω 0 0 u).encard = k'}) := by
    intro i j hij
    rw [Function.onFun, disjoint_left]
    intro ω h1 h2
    exact hij (by exact_mod_cast (h1 : (arrivals r rate ω 0 0 u).encard = i).symm.trans h2)
  have hm := fun k' : ℕ => measurableSet_arrivals (r := r) h.meas 0 0 u k'
  have hall : law (⋃ k' : ℕ, {ω | (arrivals r rate ω 0 0 u).encard = k'}) = 1 := by
    rw [measure_iUnion hd hm, ← tsum_poisson (∫ x in (0 : ℝ)..u, rate x).toNNReal]
    refine tsum_congr fun k' => ?_
    have := C95_count h le_rfl hu k'
    rw [measureReal_def, measureReal_def] at this
    exact (ENNReal.toReal_eq_toReal_iff' (measure_ne_top _ _) (measure_ne_top _ _)).mp this
  have hnull : ∀ᵐ ω ∂law, ω ∈ ⋃ k' : ℕ, {ω | (arrivals r rate ω 0 0 u).encard = k'} :=
    (prob_compl_eq_zero_iff (MeasurableSet.iUnion hm)).mpr hall
  filter_upwards [hnull, ae_pos] with ω hω hp
  obtain ⟨k', hk'⟩ := mem_iUnion.mp hω
  rw [mem_ofPred_eq, arrivals_encard] at hk'
  refine (finite_of_encard_eq_coe hk').subset ?_
  rintro n ⟨h1, h2⟩
  exact ⟨lt_cand h.pos hp n, h1, h2⟩

omit [MeasurableSpace S] in
open Classical in
/-- The product of the marks' factors is the product of powers with the numbers of each colour. -/
theorem iInf_colours {z : ι → ℝ} (h0 : ∀ i, 0 ≤ z i) (h1 : ∀ i, z i ≤ 1) {p : Draws × (ℕ → S)}
    (hf : {n | cand r p.1 0 n ≤ u ∧ acc r rate p.1 0 n}.Finite) :
    ⨅ M, ∏ n ∈ Finset.range M, markFactor r rate u (fun x => ENNReal.ofReal (∏ i, if x ∈ K i then z i else 1)) p n =
      ENNReal.ofReal (∏ i, z i ^ (marked r rate u (K i) p.1 p.2).ncard) := by
  have hγ0 : ∀ x, 0 ≤ ∏ i, (if x ∈ K i then z i else 1 : ℝ) := fun x => Finset.prod_nonneg fun i _ => by
    split
    · exact h0 i
    · exact zero_le_one
  have hγ1 : ∀ x, ∏ i, (if x ∈ K i then z i else 1 : ℝ) ≤ 1 := fun x => Finset.prod_le_one (fun i _ => by
    split
    · exact h0 i
    · exact zero_le_one) fun i _ => by
    split
    · exact h1 i
    · exact le_rfl
  obtain ⟨B, hB⟩ := hf.bddAbove
  have key : ∀ M, B < M → ∏ n ∈ Finset.range M, markFactor r rate u (fun x => ENNReal.ofReal (∏ i, if x ∈ K i then z i else 1)) p n =
      ENNReal.ofReal (∏ i, z i ^ (marked r rate u (K i) p.1 p.2).ncard) := by
    intro M hM
    have e1 : ∀ n, markFactor r rate u (fun x => ENNReal.ofReal (∏ i, if x ∈ K i then z i else 1)) p n =
        ENNReal.ofReal (if cand r p.1 0 n ≤ u ∧ acc r rate p.1 0 n then
          ∏ i, (if (cand r p.1 0 n, p.2 (before r rate p.1 n)) ∈ K i then z i else 1) else 1) := fun n => by
      unfold markFactor
      split
      · rfl
      · simp
    simp only [e1]
    rw [← ENNReal.ofReal_prod_of_nonneg]
    · congr 1
      have e2 : ∀ n, (if cand r p.1 0 n ≤ u ∧ acc r rate p.1 0 n then
          ∏ i, (if (cand r p.1 0 n, p.2 (before r rate p.1 n)) ∈ K i then z i else 1) else 1 : ℝ) =
          ∏ i, (if n ∈ hitsIn r rate u (K i) p then z i else 1) := fun n => by
        by_cases hn : cand r p.1 0 n ≤ u ∧ acc r rate p.1 0 n
        · rw [if_pos hn]
          refine Finset.prod_congr rfl fun i _ => if_congr ?_ rfl rfl
          exact ⟨fun h => ⟨hn.1, hn.2, h⟩, fun h => h.2.2⟩
        · rw [if_neg hn, Finset.prod_eq_one]
          intro i _
          rw [if_neg fun h => hn ⟨h.1, h.2.1⟩]
      simp only [e2]
      rw [Finset.prod_comm]
      refine Finset.prod_congr rfl fun i _ => ?_
      rw [Finset.prod_ite, Finset.prod_const, Finset.prod_const_one, mul_one, marked_ncard]
      congr 1
      rw [← ncard_coe_finset]
      congr 1
      ext n
      simp only [Finset.coe_filter, Finset.mem_range, mem_ofPred_eq, and_iff_right_iff_imp]
      intro hn
      have := hB (show n ∈ {n | cand r p.1 0 n ≤ u ∧ acc r rate p.1 0 n} from ⟨hn.1, hn.2.1⟩)
      omega
    · intro n _
      split
      · exact hγ0 _
      · exact zero_le_one
  have hle : ∀ n, markFactor r rate u (fun x => ENNReal.ofReal (∏ i, if x ∈ K i then z i else 1)) p n ≤ 1 := fun n => by
    unfold markFactor
    split
    · exact ENNReal.ofReal_le_one.mpr (hγ1 _)
    · exact le_rfl
  refine le_antisymm ((iInf_le _ (B + 1)).trans (key _ (Nat.lt_succ_self B)).le) (le_iInf fun M => ?_)
  rw [← key (max M (B + 1)) (by omega)]
  exact factors_anti hle (le_max_left _ _)

/-- Sorted by disjoint classes of times and marks, the numbers of arrivals are independent and Poisson. -/
theorem marked_law (h : Rate rate r) (hu : 0 ≤ u) (hK : ∀ i, MeasurableSet (K i)) (hd : Pairwise (Function.onFun Disjoint K)) :
    (markedLaw ν).map (fun p i => (marked r rate u (K i) p.1 p.2).ncard) =
      Measure.pi fun i => poissonMeasure (∫ s in (0 : ℝ)..u, rate s * ν.real {x | (s, x) ∈ K i}).toNNReal := by
  classical
  have hmeas : Measurable fun (p : Draws × (ℕ → S)) i => (marked r rate u (K i) p.1 p.2).ncard :=
    measurable_pi_iff.mpr fun i => measurable_marked h.meas (hK i)
  have : IsProbabilityMeasure ((markedLaw ν).map (fun p i => (marked r rate u (K i) p.1 p.2).ncard)) :=
    Measure.isProbabilityMeasure_map hmeas.aemeasurable
  refine law_of_gen fun z => ?_
  rw [gen_poisson _ (fun i => (z i : ℝ)), integral_map hmeas.aemeasurable (by
    exact (gen z).continuous.aestronglyMeasurable)]
  have hz0 : ∀ i, 0 ≤ (z i : ℝ) := fun i => (z i).2.1
  have hz1 : ∀ i, (z i : ℝ) ≤ 1 := fun i => (z i).2.2
  set γ : ℝ × S → ℝ := fun x => ∏ i, if x ∈ K i then (z i : ℝ) else 1 with hγ
  have hγm : Measurable γ := Finset.measurable_prod _ fun i _ => Measurable.ite (hK i) measurable_const measurable_const
  have hγ0 : ∀ x, 0 ≤ γ x := fun x => Finset.prod_nonneg fun i _ => by
    split
    · exact hz0 i
    · exact zero_le_one
  have hγ1 : ∀ x, γ x ≤ 1 := fun x => Finset.prod_le_one (fun i _ => by
    split
    · exact hz0 i
    · exact zero_le_one) fun i _ => by
    split
    · exact hz1 i
    · exact le_rfl
  have hγs : ∀ x, γ x = 1 - ∑ i, (1 - (z i : ℝ)) * (K i).indicator 1 x := by
    intro x
    by_cases hx : ∃ i, x ∈ K i
    · obtain ⟨i, hi⟩ := hx
      have hno : ∀ j, j ≠ i → x ∉ K j := fun j hj hxj => disjoint_left.mp (hd hj) hxj hi
      rw [hγ]
      simp only
      rw [Finset.prod_eq_single i (fun j _ hj => if_neg (hno j hj)) (by simp), if_pos hi,
        Finset.sum_eq_single i (fun j _ hj => by rw [indicator_of_notMem (hno j hj), mul_zero]) (by simp), indicator_of_mem hi]
      simp
    · push Not at hx
      rw [hγ]
      simp only
      rw [Finset.prod_eq_one fun i _ => if_neg (hx i), Finset.sum_eq_zero fun i _ => by rw [indicator_of_notMem (hx i), mul_zero]]
      simp
  have hKs : ∀ i s, MeasurableSet {x | (s, x) ∈ K i} := fun i s => measurable_prodMk_left (hK i)
  have hone : ∀ s, 1 - ∫ x, γ (s, x) ∂ν = ∑ i, (1 - (z i : ℝ)) * ν.real {x | (s, x) ∈ K i} := by
    intro s
    have hi : ∀ i, Integrable (fun x => (1 - (z i : ℝ)) * (K i).indicator (1 : ℝ × S → ℝ) (s, x)) ν := fun i => by
      refine Integrable.const_mul ?_ _
      exact (integrable_const (1 : ℝ)).indicator (hKs i s)
    have : ∫ x, γ (s, x) ∂ν = 1 - ∑ i, (1 - (z i : ℝ)) * ν.real {x | (s, x) ∈ K i} := by
      simp only [hγs]
      rw [integral_sub (integrable_const 1) (integrable_finsetSum _ fun i _ => hi i), integral_finsetSum _ fun i _ => hi i]
      congr 1
      · simp
      · refine Finset.sum_congr rfl fun i _ => ?_
        rw [integral_const_mul]
        congr 1
        exact integral_indicator_one (hKs i s)
    rw [this]; ring
  have hmain := mean_marks (ν := ν) h hγm hγ0 hγ1 hu
  have hfin : ∀ᵐ p ∂markedLaw ν, {n | cand r p.1 0 n ≤ u ∧ acc r rate p.1 0 n}.Finite :=
    Measure.quasiMeasurePreserving_fst.ae (ae_finite_marked h hu)
  rw [lintegral_congr_ae (g := fun p => ENNReal.ofReal (∏ i, (z i : ℝ) ^ (marked r rate u (K i) p.1 p.2).ncard)) (by
    filter_upwards [hfin] with p hp
    exact iInf_colours hz0 hz1 hp)] at hmain
  rw [integral_eq_lintegral_of_nonneg_ae (ae_of_all _ fun p => Finset.prod_nonneg fun i _ => pow_nonneg (hz0 i) _)
    ((gen z).continuous.measurable.comp hmeas).aestronglyMeasurable, hmain, ENNReal.toReal_ofReal (Real.exp_pos _).le]
  congr 2
  simp only [hone]
  have hrm : ∀ i, Measurable fun s => ν.real {x | (s, x) ∈ K i} := fun i =>
    (measurable_measure_prodMk_left (hK i)).ennreal_toReal
  have hint : ∀ i, IntervalIntegrable (fun s => rate s * ν.real {x | (s, x) ∈ K i}) volume 0 u := fun i => by
    refine (h.integrable 0 u).mono_fun (h.meas.mul (hrm i)).aestronglyMeasurable (ae_of_all _ fun s => ?_)
    beta_reduce
    rw [Real.norm_of_nonneg (mul_nonneg (h.nonneg s) measureReal_nonneg), Real.norm_of_nonneg (h.nonneg s)]
    exact mul_le_of_le_one_right (h.nonneg s) measureReal_le_one
  have e : ∀ s, rate s * ∑ i, (1 - (z i : ℝ)) * ν.real {x | (s, x) ∈ K i} =
      ∑ i, (1 - (z i : ℝ)) * (rate s * ν.real {x | (s, x) ∈ K i}) := fun s => by
    rw [Finset.mul_sum]; exact Finset.sum_congr rfl fun i _ => by ring
  simp only [e]
  rw [intervalIntegral.integral_finsetSum fun i _ => (hint i).const_mul _]
  refine Finset.sum_congr rfl fun i _ => ?_
  rw [intervalIntegral.integral_const_mul, Real.coe_toNNReal]
  exact intervalIntegral.integral_nonneg hu fun s _ => mul_nonneg (h.nonneg s) measureReal_nonneg

end colours

end Verif.ThinSpec
