import Verif.Props.QueueExponential
import Mathlib.Probability.Moments.Variance

/-! # C141: mean waiting times at a queue with one server -/

set_option linter.unusedSectionVars false

namespace Verif.QueueSpec

open Filter Topology MeasureTheory ProbabilityTheory

/-- The largest of the first excesses. -/
noncomputable def peak (A S : ℕ → ℝ) : ℕ → ℝ
  | 0 => 0
  | n + 1 => max (peak A S n) (excess A S (n + 1))

theorem peak_le_iff {A S : ℕ → ℝ} {n : ℕ} {x : ℝ} : peak A S n ≤ x ↔ ∀ k ≤ n, excess A S k ≤ x := by
  induction n with
  | zero => simp [peak, excess]
  | succ n ih =>
    rw [peak, max_le_iff, ih]
    constructor
    · rintro ⟨h1, h2⟩ k hk
      rcases Nat.lt_or_ge k (n + 1) with h | h
      · exact h1 k (by omega)
      · rwa [show k = n + 1 by omega]
    · exact fun h => ⟨fun k hk => h k (by omega), h _ le_rfl⟩

theorem peak_mono (A S : ℕ → ℝ) : Monotone (peak A S) :=
  monotone_nat_of_le_succ fun _ => le_max_left _ _

theorem peak_nonneg (A S : ℕ → ℝ) (n : ℕ) : 0 ≤ peak A S n := peak_mono A S n.zero_le

theorem peak_tendsto {A S : ℕ → ℝ} (h : BddAbove (Set.range fun k => excess A S k)) :
    Tendsto (peak A S) atTop (𝓝 (⨆ k, excess A S k)) := by
  have hb : ∀ n, peak A S n ≤ ⨆ k, excess A S k := fun n => peak_le_iff.mpr fun k _ => le_ciSup h k
  have h1 := tendsto_atTop_ciSup (peak_mono A S) ⟨_, by rintro _ ⟨n, rfl⟩; exact hb n⟩
  have e : ⨆ n, peak A S n = ⨆ k, excess A S k := by
    refine le_antisymm (ciSup_le hb) (ciSup_le fun k => ?_)
    exact (peak_le_iff.mp le_rfl k le_rfl).trans (le_ciSup ⟨_, by rintro _ ⟨n, rfl⟩; exact hb n⟩ k)
  rwa [e] at h1

section
variable {Ω : Type*} [MeasurableSpace Ω] {P : Measure Ω} [IsProbabilityMeasure P] {A S : ℕ → Ω → ℝ}

theorem RenewalInput.peak_meas (h : RenewalInput P A S) (n : ℕ) : Measurable fun ω => peak (A · ω) (S · ω) n := by
  induction n with
  | zero => exact measurable_const
  | succ n ih => exact ih.max (h.excess_meas _)

theorem RenewalInput.wait_peak (h : RenewalInput P A S) (n : ℕ) :
    IdentDistrib (fun ω => wait (A · ω) (S · ω) n) (fun ω => peak (A · ω) (S · ω) n) P P := by
  refine ⟨(h.wait_meas n).aemeasurable, (h.peak_meas n).aemeasurable, ?_⟩
  have : IsProbabilityMeasure (P.map fun ω => wait (A · ω) (S · ω) n) :=
    Measure.isProbabilityMeasure_map (h.wait_meas n).aemeasurable
  refine Measure.ext_of_Iic _ _ fun x => ?_
  rw [Measure.map_apply (h.wait_meas n) measurableSet_Iic, Measure.map_apply (h.peak_meas n) measurableSet_Iic]
  convert h.wait_law n x using 2
  · rfl
  · ext ω
    exact peak_le_iff

theorem RenewalInput.bounded (h : RenewalInput P A S) (hlt : ∫ ω, S 0 ω ∂P < ∫ ω, A 0 ω ∂P) :
    ∀ᵐ ω ∂P, BddAbove (Set.range fun k => excess (A · ω) (S · ω) k) := by
  filter_upwards [h.excess_limit] with ω hω
  have h1 : Tendsto (fun n : ℕ => excess (A · ω) (S · ω) n / n * n) atTop atBot :=
    hω.neg_mul_atTop (by linarith) tendsto_natCast_atTop_atTop
  have h2 : Tendsto (fun n : ℕ => excess (A · ω) (S · ω) n) atTop atBot := by
    refine h1.congr' ?_
    filter_upwards [eventually_gt_atTop 0] with n hn
    have : (n : ℝ) ≠ 0 := by exact_mod_cast hn.ne'
    rw [div_mul_cancel₀ _ this]
  exact (isBoundedUnder_of_eventually_le (h2.eventually_le_atBot 0)).bddAbove_range

theorem RenewalInput.top_meas (h : RenewalInput P A S) : Measurable (top A S) := Measurable.iSup fun k => h.excess_meas k

theorem RenewalInput.top_law (h : RenewalInput P A S) (hlt : ∫ ω, S 0 ω ∂P < ∫ ω, A 0 ω ∂P) {η : Measure ℝ}
    [IsProbabilityMeasure η] (hη : ∀ x, Tendsto (fun n => P {ω | wait (A · ω) (S · ω) n ≤ x}) atTop (𝓝 (η (Set.Iic x)))) :
    P.map (top A S) = η := by
  have : IsProbabilityMeasure (P.map (top A S)) := Measure.isProbabilityMeasure_map h.top_meas.aemeasurable
  refine Measure.ext_of_Iic _ _ fun x => ?_
  rw [tendsto_nhds_unique (hη x) (h.wait_limit_law x).2, Measure.map_apply h.top_meas measurableSet_Iic]
  refine measure_congr ?_
  filter_upwards [h.bounded hlt] with ω hω
  exact propext ⟨fun hx k => (le_ciSup hω k).trans hx, fun hx => ciSup_le hx⟩

theorem RenewalInput.mean_mono (h : RenewalInput P A S) :
    Monotone fun n => ∫⁻ ω, ENNReal.ofReal (wait (A · ω) (S · ω) n) ∂P := by
  have e : ∀ n, ∫⁻ ω, ENNReal.ofReal (wait (A · ω) (S · ω) n) ∂P = ∫⁻ ω, ENNReal.ofReal (peak (A · ω) (S · ω) n) ∂P :=
    fun n => ((h.wait_peak n).comp ENNReal.measurable_ofReal).lintegral_eq
  intro m n hmn
  simp only [e]
  exact lintegral_mono fun ω => ENNReal.ofReal_le_ofReal (peak_mono _ _ hmn)

theorem RenewalInput.mean_limit (h : RenewalInput P A S) (hlt : ∫ ω, S 0 ω ∂P < ∫ ω, A 0 ω ∂P) {η : Measure ℝ}
    [IsProbabilityMeasure η] (hη : ∀ x, Tendsto (fun n => P {ω | wait (A · ω) (S · ω) n ≤ x}) atTop (𝓝 (η (Set.Iic x)))) :
    Tendsto (fun n => ∫⁻ ω, ENNReal.ofReal (wait (A · ω) (S · ω) n) ∂P) atTop (𝓝 (∫⁻ x, ENNReal.ofReal x ∂η)) := by
  have e : ∀ n, ∫⁻ ω, ENNReal.ofReal (wait (A · ω) (S · ω) n) ∂P = ∫⁻ ω, ENNReal.ofReal (peak (A · ω) (S · ω) n) ∂P :=
    fun n => ((h.wait_peak n).comp ENNReal.measurable_ofReal).lintegral_eq
  simp only [e]
  rw [← h.top_law hlt hη, lintegral_map ENNReal.measurable_ofReal h.top_meas]
  refine lintegral_tendsto_of_tendsto_of_monotone (fun n => (h.peak_meas n).ennreal_ofReal.aemeasurable)
    (Eventually.of_forall fun ω m n hmn => ENNReal.ofReal_le_ofReal (peak_mono _ _ hmn)) ?_
  filter_upwards [h.bounded hlt] with ω hω
  exact (ENNReal.continuous_ofReal.tendsto _).comp (peak_tendsto hω)

/-- Time for which the server is idle before the agent `n + 1`. -/
noncomputable def idle (A S : ℕ → ℝ) (n : ℕ) : ℝ := max 0 (A (n + 1) - (wait A S n + S n))

theorem wait_idle (A S : ℕ → ℝ) (n : ℕ) : wait A S (n + 1) = wait A S n + (S n - A (n + 1)) + idle A S n := by
  rw [wait, idle]
  rcases le_total (A (n + 1)) (wait A S n + S n) with h | h
  · rw [max_eq_right (by linarith), max_eq_left (by linarith)]; ring
  · rw [max_eq_left (by linarith), max_eq_right (by linarith)]; ring

theorem wait_idle_sq (A S : ℕ → ℝ) (n : ℕ) :
    wait A S (n + 1) ^ 2 = (wait A S n + (S n - A (n + 1))) ^ 2 - idle A S n ^ 2 := by
  rw [wait, idle]
  rcases le_total (A (n + 1)) (wait A S n + S n) with h | h
  · rw [max_eq_right (by linarith), max_eq_left (by linarith)]; ring
  · rw [max_eq_left (by linarith), max_eq_right (by linarith)]; ring

theorem RenewalInput.kingman (h : RenewalInput P A S) (hA2 : MemLp (A 0) 2 P) (hS2 : MemLp (S 0) 2 P)
    (hlt : ∫ ω, S 0 ω ∂P < ∫ ω, A 0 ω ∂P) (n : ℕ) :
    Integrable (fun ω => wait (A · ω) (S · ω) n) P ∧
    ∫ ω, wait (A · ω) (S · ω) n ∂P ≤ (Var[A 0; P] + Var[S 0; P]) / (2 * (∫ ω, A 0 ω ∂P - ∫ ω, S 0 ω ∂P)) := by
  have hA : ∀ i, Measurable (A i) := fun i => h.meas (.inl i)
  have hS : ∀ i, Measurable (S i) := fun i => h.meas (.inr i)
  have lA : ∀ i, MemLp (A i) 2 P := fun i => (h.arr i).memLp_iff.mpr hA2
  have lS : ∀ i, MemLp (S i) 2 P := fun i => (h.svc i).memLp_iff.mpr hS2
  have lX : ∀ i, MemLp (fun ω => S i ω - A (i + 1) ω) 2 P := fun i => (lS i).sub (lA _)
  have lE : ∀ k, MemLp (fun ω => excess (A · ω) (S · ω) k) 2 P := by
    intro k
    have := memLp_finsetSum (Finset.range k) (f := fun i ω => S i ω - A (i + 1) ω) (p := 2) (μ := P) fun i _ => lX i
    simpa [excess] using this
  have lP : ∀ n, MemLp (fun ω => peak (A · ω) (S · ω) n) 2 P := by
    intro n
    induction n with
    | zero => exact MemLp.zero' 
    | succ n ih => exact ih.sup (lE _)
  have lW : ∀ n, MemLp (fun ω => wait (A · ω) (S · ω) n) 2 P := fun n => (h.wait_peak n).memLp_iff.mpr (lP n)
  have iW : ∀ n, Integrable (fun ω => wait (A · ω) (S · ω) n) P := fun n => (lW n).integrable (by norm_num)
  refine ⟨iW n, ?_⟩
  have hX : ∀ i, Measurable fun ω => S i ω - A (i + 1) ω := fun i => (hS i).sub (hA _)
  have lI : MemLp (fun ω => idle (A · ω) (S · ω) n) 2 P :=
    (MemLp.zero' (ε := ℝ)).sup ((lA (n + 1)).sub ((lW n).add (lS n)))
  have iI : Integrable (fun ω => idle (A · ω) (S · ω) n) P := lI.integrable (by norm_num)
  have iX : Integrable (fun ω => S n ω - A (n + 1) ω) P := (lX n).integrable (by norm_num)
  have hind : (fun ω => wait (A · ω) (S · ω) n) ⟂ᵢ[P] fun ω => S n ω - A (n + 1) ω := by
    have := (h.waitFrom_indep 0 n).comp measurable_id (by fun_prop : Measurable fun p : ℝ × ℝ => p.1 - p.2)
    simpa only [Function.comp_def, waitFrom_zero, id] using this
  have mX : ∫ ω, (S n ω - A (n + 1) ω) ∂P = ∫ ω, S 0 ω ∂P - ∫ ω, A 0 ω ∂P := by
    rw [integral_sub ((lS n).integrable (by norm_num)) ((lA _).integrable (by norm_num)), (h.svc n).integral_eq,
      (h.arr (n + 1)).integral_eq]
  have vX : Var[fun ω => S n ω - A (n + 1) ω; P] = Var[A 0; P] + Var[S 0; P] := by
    have hi : S n ⟂ᵢ[P] A (n + 1) := h.indep.indepFun (i := .inr n) (j := .inl (n + 1)) (by simp)
    have := variance_fun_sub (lS n) (lA (n + 1))
    rw [hi.covariance_eq_zero (lS n) (lA (n + 1)), (h.svc n).variance_eq, (h.arr (n + 1)).variance_eq] at this
    rw [this]
    ring
  -- means and squares grow
  have m1 : ∫ ω, wait (A · ω) (S · ω) n ∂P ≤ ∫ ω, wait (A · ω) (S · ω) (n + 1) ∂P := by
    rw [(h.wait_peak n).integral_eq, (h.wait_peak (n + 1)).integral_eq]
    exact integral_mono ((lP n).integrable (by norm_num)) ((lP (n + 1)).integrable (by norm_num))
      fun ω => peak_mono _ _ n.le_succ
  have m2 : ∫ ω, wait (A · ω) (S · ω) n ^ 2 ∂P ≤ ∫ ω, wait (A · ω) (S · ω) (n + 1) ^ 2 ∂P := by
    have e : ∀ n, ∫ ω, wait (A · ω) (S · ω) n ^ 2 ∂P = ∫ ω, peak (A · ω) (S · ω) n ^ 2 ∂P := fun n =>
      ((h.wait_peak n).comp (by fun_prop : Measurable fun x : ℝ => x ^ 2)).integral_eq
    rw [e, e]
    refine integral_mono (lP n).integrable_sq (lP (n + 1)).integrable_sq fun ω => ?_
    exact pow_le_pow_left₀ (peak_nonneg _ _ _) (peak_mono _ _ n.le_succ) 2
  have e1 : ∫ ω, wait (A · ω) (S · ω) (n + 1) ∂P =
      ∫ ω, wait (A · ω) (S · ω) n ∂P + (∫ ω, S 0 ω ∂P - ∫ ω, A 0 ω ∂P) + ∫ ω, idle (A · ω) (S · ω) n ∂P := by
    simp_rw [wait_idle]
    refine (integral_add ((iW n).add iX) iI).trans ?_
    congr 1
    exact (integral_add (iW n) iX).trans (by rw [mX])
  have iWX : Integrable (fun ω => wait (A · ω) (S · ω) n * (S n ω - A (n + 1) ω)) P := (lW n).integrable_mul (lX n)
  have e2 : ∫ ω, wait (A · ω) (S · ω) (n + 1) ^ 2 ∂P = ∫ ω, wait (A · ω) (S · ω) n ^ 2 ∂P +
      2 * ((∫ ω, wait (A · ω) (S · ω) n ∂P) * (∫ ω, S 0 ω ∂P - ∫ ω, A 0 ω ∂P)) +
      ∫ ω, (S n ω - A (n + 1) ω) ^ 2 ∂P - ∫ ω, idle (A · ω) (S · ω) n ^ 2 ∂P := by
    have e3 : ∀ ω, wait (A · ω) (S · ω) (n + 1) ^ 2 = wait (A · ω) (S · ω) n ^ 2 +
        2 * (wait (A · ω) (S · ω) n * (S n ω - A (n + 1) ω)) + (S n ω - A (n + 1) ω) ^ 2 -
          idle (A · ω) (S · ω) n ^ 2 := fun ω => by rw [wait_idle_sq]; ring
    simp_rw [e3]
    refine (integral_sub (((lW n).integrable_sq.add (iWX.const_mul 2)).add (lX n).integrable_sq) lI.integrable_sq).trans ?_
    congr 1
    refine (integral_add ((lW n).integrable_sq.add (iWX.const_mul 2)) (lX n).integrable_sq).trans ?_
    congr 1
    refine (integral_add (lW n).integrable_sq (iWX.const_mul 2)).trans ?_
    rw [integral_const_mul, hind.integral_fun_mul_eq_mul_integral (iW n).aestronglyMeasurable iX.aestronglyMeasurable, mX]
  have v1 := variance_eq_sub (lX n)
  rw [vX] at v1
  have v2 := variance_eq_sub lI
  have v3 := variance_nonneg (fun ω => idle (A · ω) (S · ω) n) P
  simp only [Pi.pow_apply] at v1 v2
  rw [mX] at v1
  have hd : 0 < ∫ ω, A 0 ω ∂P - ∫ ω, S 0 ω ∂P := by linarith
  have hi : ∫ ω, A 0 ω ∂P - ∫ ω, S 0 ω ∂P ≤ ∫ ω, idle (A · ω) (S · ω) n ∂P := by linarith
  have hi2 : (∫ ω, A 0 ω ∂P - ∫ ω, S 0 ω ∂P) ^ 2 ≤ (∫ ω, idle (A · ω) (S · ω) n ∂P) ^ 2 := pow_le_pow_left₀ hd.le hi 2
  rw [le_div_iff₀ (by linarith)]
  nlinarith

/-- `W n` is the time from the arrival of the `n`-th agent to the start of its service, in every history of the queue. -/
def Waits (c : Ω → QCfg (WithTop ℝ)) (W : ℕ → Ω → ℝ) : Prop :=
  ∀ ω b s l, Traj (c ω) b AloneOk s l → ∀ n p q, (atStage 0 (stamps s l))[n]? = some p →
    (atStage 1 (stamps s l))[n]? = some q → q.1 = p.1 ∧ q.2 = p.2 + (W n ω : WithTop ℝ)

theorem waits {c : Ω → QCfg (WithTop ℝ)} (hc : ∀ ω, OneServer (c ω) (A · ω) (S · ω)) :
    Waits c fun n ω => wait (A · ω) (S · ω) n := by
  intro ω b s l ht n p q hp hq
  obtain ⟨e1, e2⟩ := (hc ω).times ht n
  rw [e1 p hp, e2 q hq]
  exact ⟨rfl, by norm_cast⟩

/-- C141: mean waiting times grow from agent to agent. In the case `σ < α` of C138 they tend to the mean of the law the
waiting times settle to; and if times between arrivals and services have variances, all are at most the sum of the variances
divided by `2 * (α - σ)`. -/
theorem C141_means (h : RenewalInput P A S) {c : Ω → QCfg (WithTop ℝ)} (hc : ∀ ω, OneServer (c ω) (A · ω) (S · ω)) :
    ∃ W : ℕ → Ω → ℝ, (∀ n, Measurable (W n)) ∧ (∀ n ω, 0 ≤ W n ω) ∧ Waits c W ∧
      (Monotone fun n => ∫⁻ ω, ENNReal.ofReal (W n ω) ∂P) ∧
      (∫ ω, S 0 ω ∂P < ∫ ω, A 0 ω ∂P →
        (∀ η : Measure ℝ, IsProbabilityMeasure η →
          (∀ x, Tendsto (fun n => P {ω | W n ω ≤ x}) atTop (𝓝 (η (Set.Iic x)))) →
          Tendsto (fun n => ∫⁻ ω, ENNReal.ofReal (W n ω) ∂P) atTop (𝓝 (∫⁻ x, ENNReal.ofReal x ∂η))) ∧
        (MemLp (A 0) 2 P → MemLp (S 0) 2 P → ∀ n, Integrable (W n) P ∧
          ∫ ω, W n ω ∂P ≤ (Var[A 0; P] + Var[S 0; P]) / (2 * (∫ ω, A 0 ω ∂P - ∫ ω, S 0 ω ∂P)))) :=
  ⟨fun n ω => wait (A · ω) (S · ω) n, h.wait_meas, fun _ _ => wait_nonneg _ _ _, waits hc, h.mean_mono, fun hlt =>
    ⟨fun _ _ hη => h.mean_limit hlt hη, fun hA hS n => h.kingman hA hS hlt n⟩⟩

/-- C141: for exponential times as in C140 the mean waiting time tends to `lam / (mu * (mu - lam))`. -/
theorem C141_exponential {lam mu : ℝ} (h0 : 0 < lam) (hlt : lam < mu) (h : RenewalInput P A S)
    (hA : P.map (A 0) = expMeasure lam) (hS : P.map (S 0) = expMeasure mu) {c : Ω → QCfg (WithTop ℝ)}
    (hc : ∀ ω, OneServer (c ω) (A · ω) (S · ω)) :
    ∃ W : ℕ → Ω → ℝ, (∀ n, Measurable (W n)) ∧ (∀ n ω, 0 ≤ W n ω) ∧ Waits c W ∧
      Tendsto (fun n => ∫⁻ ω, ENNReal.ofReal (W n ω) ∂P) atTop (𝓝 (ENNReal.ofReal (lam / (mu * (mu - lam))))) := by
  refine ⟨fun n ω => wait (A · ω) (S · ω) n, h.wait_meas, fun _ _ => wait_nonneg _ _ _, waits hc, ?_⟩
  have hmu := h0.trans hlt
  obtain ⟨r1, r2⟩ := mm_rho h0 hlt
  have mA : ∫ ω, A 0 ω ∂P = 1 / lam := by
    rw [← exp_mean h0, ← hA, integral_map (φ := A 0) (f := fun x => x) (h.meas (.inl 0)).aemeasurable aestronglyMeasurable_id]
  have mS : ∫ ω, S 0 ω ∂P = 1 / mu := by
    rw [← exp_mean hmu, ← hS, integral_map (φ := S 0) (f := fun x => x) (h.meas (.inr 0)).aemeasurable aestronglyMeasurable_id]
  have hmean : ∫ ω, S 0 ω ∂P < ∫ ω, A 0 ω ∂P := by
    rw [mA, mS]
    exact one_div_lt_one_div_of_lt h0 hlt
  have := mmLaw_prob h0 hlt
  have hset : Settled (P.map (A 0)) (P.map (S 0)) (mmLaw lam mu) := by
    rw [hA, hS]
    exact mm_settled h0 hlt
  have key := h.mean_limit hmean (η := mmLaw lam mu) fun x => by
    rw [h.settled_unique hmean hset]
    exact (h.wait_limit_law x).2
  have e : ∫⁻ x, ENNReal.ofReal x ∂mmLaw lam mu = ENNReal.ofReal (lam / (mu * (mu - lam))) := by
    rw [mmLaw, lintegral_add_measure, lintegral_smul_measure, lintegral_smul_measure, exp_mean_lintegral (sub_pos.mpr hlt),
      lintegral_dirac' _ ENNReal.measurable_ofReal, smul_eq_mul, smul_eq_mul, ← ENNReal.ofReal_mul r1.le]
    simp only [ENNReal.ofReal_zero, mul_zero, zero_add]
    congr 1
    have := (sub_pos.mpr hlt).ne'
    field_simp
  rw [← e]
  exact key

end

/-- Arrivals every 2 and services of 0 or 3: nobody waits for more than 9/4 in the mean. -/
example : ∃ W : ℕ → (ℕ ⊕ ℕ → ℝ) → ℝ,
    Waits (fun ω : ℕ ⊕ ℕ → ℝ => givenQueue (fun i => |ω (.inl i)|) fun i => |ω (.inr i)|) W ∧
    ∀ n, Integrable (W n) (Measure.infinitePi (laws (Measure.dirac 2) coin)) ∧
      ∫ ω, W n ω ∂Measure.infinitePi (laws (Measure.dirac 2) coin) ≤ 9 / 4 := by
  obtain ⟨h1, h2, h3, h4⟩ := C133_met (Measure.dirac 2) coin (integrable_dirac (by simp)) coin_int
  rw [integral_dirac, abs_of_pos (by norm_num)] at h2
  rw [coin_mean] at h3
  obtain ⟨W, -, -, g1, -, g2⟩ := C141_means h1 h4
  refine ⟨W, g1, fun n => ?_⟩
  have abs1 : Measurable fun x : ℝ => |x| := by fun_prop
  have ev : ∀ x, (Measure.infinitePi (laws (Measure.dirac 2) coin)).map (fun ω => ω x) = laws (Measure.dirac 2) coin x :=
    fun x => Measure.infinitePi_map_eval _ x
  have bd : ∀ᵐ x ∂coin, |x| ∈ Set.Icc (0 : ℝ) 3 := by
    rw [coin, ae_add_measure_iff, Measure.ae_ennreal_smul_measure_iff (by simp), Measure.ae_ennreal_smul_measure_iff (by simp)]
    constructor <;> rw [ae_dirac_iff (measurableSet_Icc.preimage abs1)] <;> norm_num
  have l2 : MemLp (fun x : ℝ => |x|) 2 coin := memLp_of_bounded bd abs1.aestronglyMeasurable 2
  have v2 : Var[fun x : ℝ => |x|; coin] = 9 / 4 := by
    rw [variance_eq_sub l2]
    have e : ∫ x, ((fun x : ℝ => |x|) ^ 2) x ∂coin = 9 / 2 := by
      rw [coin, integral_add_measure, integral_smul_measure, integral_smul_measure]
      · simp
        norm_num
      all_goals exact (integrable_dirac (by simp)).smul_measure (by simp)
    rw [e, coin_mean]
    norm_num
  have l1 : MemLp (fun x : ℝ => |x|) 2 (Measure.dirac (2 : ℝ)) :=
    memLp_of_bounded (a := 0) (b := 2) (by rw [ae_dirac_iff (measurableSet_Icc.preimage abs1)]; norm_num)
      abs1.aestronglyMeasurable 2
  have v1 : Var[fun x : ℝ => |x|; Measure.dirac (2 : ℝ)] = 0 := by
    rw [variance_eq_sub l1]
    simp
  have mem : ∀ x, MemLp (fun y : ℝ => |y|) 2 (laws (Measure.dirac 2) coin x) →
      MemLp (fun ω : ℕ ⊕ ℕ → ℝ => |ω x|) 2 (Measure.infinitePi (laws (Measure.dirac 2) coin)) := fun x hx => by
    rw [← ev x] at hx
    exact (memLp_map_measure_iff abs1.aestronglyMeasurable (measurable_pi_apply x).aemeasurable).mp hx
  have var : ∀ x, Var[fun ω : ℕ ⊕ ℕ → ℝ => |ω x|; Measure.infinitePi (laws (Measure.dirac 2) coin)] =
      Var[fun y : ℝ => |y|; laws (Measure.dirac 2) coin x] := fun x => by
    rw [← ev x, variance_map abs1.aemeasurable (measurable_pi_apply x).aemeasurable]
    rfl
  obtain ⟨-, g3⟩ := g2 (by rw [h2, h3]; norm_num)
  refine ⟨(g3 (mem _ l1) (mem _ l2) n).1, (g3 (mem _ l1) (mem _ l2) n).2.trans ?_⟩
  have w1 := var (.inl 0)
  have w2 := var (.inr 0)
  rw [w1, w2, h2, h3]
  simp only [laws, v1, v2]
  norm_num

end Verif.QueueSpec
