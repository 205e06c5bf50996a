import Verif.Props.QueueLeftPoisson
import Verif.Props.QueueTransformMean

/-! # C149: the mean number of agents left behind, with Poisson arrivals -/

set_option linter.unusedSectionVars false

namespace Verif.QueueSpec

open Filter Topology MeasureTheory ProbabilityTheory

/-- The factorial moments of a Poisson number. -/
theorem poisson_moment {x : ℝ} (hx : 0 ≤ x) (r : ℕ) :
    ∑' k : ℕ, (k.descFactorial r : ENNReal) * ENNReal.ofReal (Real.exp (-x) * x ^ k / k.factorial) = ENNReal.ofReal (x ^ r) := by
  rw [← Summable.sum_add_tsum_nat_add' (k := r) ENNReal.summable, Finset.sum_eq_zero, zero_add]
  · have h1 : HasSum (fun k : ℕ => x ^ r * (Real.exp (-x) * (x ^ k / k.factorial))) (x ^ r) := by
      have := ((NormedSpace.expSeries_div_hasSum_exp (𝔸 := ℝ) x).mul_left (Real.exp (-x))).mul_left (x ^ r)
      rwa [← Real.exp_eq_exp_ℝ, ← Real.exp_add, neg_add_cancel, Real.exp_zero, mul_one] at this
    conv_rhs => rw [← h1.tsum_eq]
    rw [ENNReal.ofReal_tsum_of_nonneg (fun k => by positivity) h1.summable]
    refine tsum_congr fun k => ?_
    rw [← ENNReal.ofReal_natCast, ← ENNReal.ofReal_mul (by positivity)]
    congr 1
    have h2 := Nat.factorial_mul_descFactorial (n := k + r) (k := r) (by omega)
    rw [Nat.add_sub_cancel] at h2
    rw [← h2]
    have h3 : (k.factorial : ℝ) ≠ 0 := by positivity
    have h4 : ((k + r).descFactorial r : ℝ) ≠ 0 := by
      have := Nat.descFactorial_pos.mpr (show r ≤ k + r by omega)
      positivity
    push_cast
    field_simp
    ring
  · intro k hk
    rw [Nat.descFactorial_of_lt (Finset.mem_range.mp hk)]
    simp

section
variable {Ω : Type*} [MeasurableSpace Ω] {P : Measure Ω} [IsProbabilityMeasure P] {A S : ℕ → Ω → ℝ}

/-- C149: let times between arrivals be exponential of rate `lam`. Be services of any one law and load: the mean number of agents
that the `n`-th agent leaves behind is `lam` times the mean of the time `V n` it stays, and the `r`-th factorial moment is
`lam ^ r` times the mean of `V n ^ r`, even if these are infinite. If services have mean `σ` with `lam * σ < 1` and a second
moment, the mean number left behind tends to `lam * σ + lam ^ 2 * E (service ^ 2) / (2 * (1 - lam * σ))`. -/
theorem C149_mean_left (h : RenewalInput P A S) {lam : ℝ} (h0 : 0 < lam) (hA : P.map (A 0) = expMeasure lam)
    {c : Ω → QCfg (WithTop ℝ)} (hc : ∀ ω, OneServer (c ω) (A · ω) (S · ω)) :
    ∃ (E : ℕ → ℕ → Set Ω) (V : ℕ → Ω → ℝ), (∀ n k, MeasurableSet (E n k)) ∧ (∀ n, Measurable (V n)) ∧ (∀ n ω, 0 ≤ V n ω) ∧
      (∀ ω b s s1 l n, Traj (c ω) b AloneOk s (s1 :: l) → s1.numDepartures = n → s.numDepartures = n + 1 →
        ∀ k : ℕ, s.numSystem = k ↔ ω ∈ E n k) ∧
      (∀ ω b s l, Traj (c ω) b AloneOk s l → ∀ n p q, (atStage 0 (stamps s l))[n]? = some p →
        (atStage 2 (stamps s l))[n]? = some q → q.1 = p.1 ∧ q.2 = p.2 + (V n ω : WithTop ℝ)) ∧
      (∀ n r, ∑' k : ℕ, (k.descFactorial r : ENNReal) * P (E n k) = ∫⁻ ω, ENNReal.ofReal ((lam * V n ω) ^ r) ∂P) ∧
      (∀ n, ∑' k : ℕ, (k : ENNReal) * P (E n k) = ENNReal.ofReal lam * ∫⁻ ω, ENNReal.ofReal (V n ω) ∂P) ∧
      (lam * ∫ ω, S 0 ω ∂P < 1 → MemLp (S 0) 2 P → Tendsto (fun n => ∑' k : ℕ, (k : ENNReal) * P (E n k)) atTop
        (𝓝 (ENNReal.ofReal (lam * (∫ ω, S 0 ω ∂P) +
          lam ^ 2 * (∫ ω, S 0 ω ^ 2 ∂P) / (2 * (1 - lam * ∫ ω, S 0 ω ∂P)))))) := by
  have hS0 : ∀ i ω, 0 ≤ S i ω := fun i ω => (hc ω).svc_nonneg i
  have mstay : ∀ n, Measurable fun ω => wait (A · ω) (S · ω) n + S n ω := fun n => (h.wait_meas n).add (h.meas (.inr n))
  have mY : ∀ n k, Measurable fun ω => ∑ j ∈ Finset.range k, A (n + 1 + j) ω := fun n k =>
    Finset.measurable_sum _ fun j _ => h.meas (.inl (n + 1 + j))
  have hpos : ∀ n ω, 0 ≤ wait (A · ω) (S · ω) n + S n ω := fun n ω => add_nonneg (wait_nonneg _ _ _) (hS0 n ω)
  have mom : ∀ n r : ℕ, ∑' k : ℕ, (k.descFactorial r : ENNReal) *
      P {ω | ∑ j ∈ Finset.range k, A (n + 1 + j) ω ≤ wait (A · ω) (S · ω) n + S n ω ∧
        wait (A · ω) (S · ω) n + S n ω < ∑ j ∈ Finset.range (k + 1), A (n + 1 + j) ω} =
      ∫⁻ ω, ENNReal.ofReal ((lam * (wait (A · ω) (S · ω) n + S n ω)) ^ r) ∂P := by
    intro n r
    have hm : ∀ k : ℕ, Measurable fun ω => ENNReal.ofReal (Real.exp (-(lam * (wait (A · ω) (S · ω) n + S n ω))) *
        (lam * (wait (A · ω) (S · ω) n + S n ω)) ^ k / k.factorial) := by
      intro k
      have he : Measurable fun x : ℝ => ENNReal.ofReal (Real.exp (-(lam * x)) * (lam * x) ^ k / k.factorial) := by fun_prop
      exact he.comp (mstay n)
    simp_rw [h.left_law hS0 h0 hA n]
    simp_rw [← lintegral_const_mul _ (hm _)]
    rw [← lintegral_tsum fun k => ((hm k).const_mul _).aemeasurable]
    exact lintegral_congr fun ω => poisson_moment (mul_nonneg h0.le (hpos n ω)) r
  have mean : ∀ n : ℕ, ∑' k : ℕ, (k : ENNReal) *
      P {ω | ∑ j ∈ Finset.range k, A (n + 1 + j) ω ≤ wait (A · ω) (S · ω) n + S n ω ∧
        wait (A · ω) (S · ω) n + S n ω < ∑ j ∈ Finset.range (k + 1), A (n + 1 + j) ω} =
      ENNReal.ofReal lam * ∫⁻ ω, ENNReal.ofReal (wait (A · ω) (S · ω) n + S n ω) ∂P := by
    intro n
    have := mom n 1
    simp only [Nat.descFactorial_one, pow_one] at this
    rw [this, ← lintegral_const_mul _ (mstay n).ennreal_ofReal]
    exact lintegral_congr fun ω => ENNReal.ofReal_mul h0.le
  refine ⟨fun n k => {ω | ∑ j ∈ Finset.range k, A (n + 1 + j) ω ≤ wait (A · ω) (S · ω) n + S n ω ∧
      wait (A · ω) (S · ω) n + S n ω < ∑ j ∈ Finset.range (k + 1), A (n + 1 + j) ω},
    fun n ω => wait (A · ω) (S · ω) n + S n ω,
    fun n k => (measurableSet_le (mY n k) (mstay n)).inter (measurableSet_lt (mstay n) (mY n (k + 1))), mstay, hpos,
    fun ω b s s1 l n ht h1 h2 k => ?_, fun ω b s l ht n p q hp hq => ?_, mom, mean, fun hlt hS2 => ?_⟩
  · have i1 := C147_left (hc ω) ht h1 h2 k
    have i2 := C147_left (hc ω) ht h1 h2 (k + 1)
    simp only [Set.mem_ofPred_eq]
    rw [← i1, ← not_le, ← i2]
    push_cast
    omega
  · obtain ⟨e1, -⟩ := (hc ω).times ht n
    rw [e1 p hp, C134_departures (hc ω) ht n q hq, add_assoc]
    exact ⟨rfl, by norm_cast⟩
  · have e : ∀ n, ∫⁻ ω, ENNReal.ofReal (wait (A · ω) (S · ω) n + S n ω) ∂P =
        ∫⁻ ω, ENNReal.ofReal (wait (A · ω) (S · ω) n) ∂P + ENNReal.ofReal (∫ ω, S 0 ω ∂P) := by
      intro n
      have : ∀ ω, ENNReal.ofReal (wait (A · ω) (S · ω) n + S n ω) =
          ENNReal.ofReal (wait (A · ω) (S · ω) n) + ENNReal.ofReal (S n ω) := fun ω =>
        ENNReal.ofReal_add (wait_nonneg _ _ _) (hS0 n ω)
      simp_rw [this]
      rw [lintegral_add_left (h.wait_meas n).ennreal_ofReal,
        ofReal_integral_eq_lintegral_ofReal h.svc_int (Eventually.of_forall (hS0 0))]
      congr 1
      exact ((h.svc n).comp ENNReal.measurable_ofReal).lintegral_eq
    refine Tendsto.congr (fun n => (mean n).symm) ?_
    simp_rw [e]
    have l := ENNReal.Tendsto.const_mul ((h.mean_wait hS0 h0 hA hlt hS2).add_const (ENNReal.ofReal (∫ ω, S 0 ω ∂P)))
      (a := ENNReal.ofReal lam) (.inr ENNReal.ofReal_ne_top)
    refine l.trans (le_of_eq ?_)
    congr 1
    have hr : 0 < 1 - lam * ∫ ω, S 0 ω ∂P := by linarith
    have q0 : 0 ≤ ∫ ω, S 0 ω ^ 2 ∂P := integral_nonneg fun ω => sq_nonneg _
    have q1 : 0 ≤ ∫ ω, S 0 ω ∂P := integral_nonneg (hS0 0)
    rw [← ENNReal.ofReal_add (by positivity) q1, ← ENNReal.ofReal_mul h0.le]
    congr 1
    ring

end

/-- Exponential times of mean 2 between arrivals and services of 0 or 3: in the long run agents leave 3 others behind in the
mean. -/
example : ∃ E : ℕ → ℕ → Set (ℕ ⊕ ℕ → ℝ),
    (∀ ω b s s1 l n, Traj (givenQueue (fun i => |ω (.inl i)|) fun i => |ω (.inr i)|) b AloneOk s (s1 :: l) →
      s1.numDepartures = n → s.numDepartures = n + 1 → ∀ k : ℕ, s.numSystem = k ↔ ω ∈ E n k) ∧
    Tendsto (fun n => ∑' k : ℕ, (k : ENNReal) * Measure.infinitePi (laws (expMeasure (1 / 2)) coin) (E n k)) atTop (𝓝 3) := by
  have hp : (0 : ℝ) < 1 / 2 := by norm_num
  have := isProbabilityMeasure_expMeasure hp
  obtain ⟨h1, -, h3, h4⟩ := C133_met (expMeasure (1 / 2)) coin (exp_int hp) coin_int
  rw [coin_mean] at h3
  obtain ⟨law, l2, m2⟩ := coin_facts
  obtain ⟨E, V, -, -, -, g1, -, -, -, g2⟩ := C149_mean_left h1 hp law h4
  refine ⟨E, g1, ?_⟩
  have g3 := g2 (by rw [h3]; norm_num) l2
  rw [h3, m2] at g3
  norm_num at g3
  exact g3

end Verif.QueueSpec
