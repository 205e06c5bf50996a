import Mathlib.Analysis.Normed.Group.Tannery
import Verif.Props.QueueLeftLaw
import Verif.Props.QueueLeftPoisson
import Verif.Props.QueueTransformMean

/-! # C152: the law of the number of agents found, with Poisson arrivals -/

set_option linter.unusedSectionVars false

namespace Verif.QueueSpec

open Filter Topology MeasureTheory ProbabilityTheory

section
variable {Ω : Type*} [MeasurableSpace Ω] {P : Measure Ω} [IsProbabilityMeasure P] {A S : ℕ → Ω → ℝ}

/-- C152: let times between arrivals be exponential of rate `lam`, and services independent of any one law, with mean `σ` and
`lam * σ < 1`. There is one law `π` such that both the chance that the `n`-th agent finds exactly `k` others and the chance that it
leaves exactly `k` behind tend to `π k`; and `π` has the generating function of C148. -/
theorem C152_found (h : RenewalInput P A S) {lam : ℝ} (h0 : 0 < lam) (hA : P.map (A 0) = expMeasure lam)
    (hlt : lam * ∫ ω, S 0 ω ∂P < 1) {c : Ω → QCfg (WithTop ℝ)} (hc : ∀ ω, OneServer (c ω) (A · ω) (S · ω)) :
    ∃ (G H : ℕ → ℕ → Set Ω) (π : ℕ → ℝ), (∀ n k, MeasurableSet (G n k)) ∧ (∀ n k, MeasurableSet (H n k)) ∧
      (∀ ω b s s1 l n, Traj (c ω) b AloneOk s (s1 :: l) → s1.numArrivals = n → s.numArrivals = n + 1 →
        ∀ k : ℕ, s1.numSystem = k ↔ ω ∈ G n k) ∧
      (∀ ω b s s1 l n, Traj (c ω) b AloneOk s (s1 :: l) → s1.numDepartures = n → s.numDepartures = n + 1 →
        ∀ k : ℕ, s.numSystem = k ↔ ω ∈ H n k) ∧
      (∀ k, Tendsto (fun n => P.real (G n k)) atTop (𝓝 (π k))) ∧ (∀ k, Tendsto (fun n => P.real (H n k)) atTop (𝓝 (π k))) ∧
      (∀ k, 0 ≤ π k) ∧ HasSum π 1 ∧ π 0 = 1 - lam * ∫ ω, S 0 ω ∂P ∧
      ∀ z, 0 ≤ z → z < 1 → HasSum (fun k => z ^ k * π k)
        ((1 - lam * ∫ ω, S 0 ω ∂P) * (1 - z) * (∫ ω, Real.exp (-(lam * (1 - z) * S 0 ω)) ∂P) /
          (∫ ω, Real.exp (-(lam * (1 - z) * S 0 ω)) ∂P - z)) := by
  have hS0 : ∀ i ω, 0 ≤ S i ω := fun i ω => (hc ω).svc_nonneg i
  have hA0 : ∀ i ω, 0 ≤ A i ω := fun i ω => (hc ω).arr_nonneg i
  have mA : ∫ ω, A 0 ω ∂P = 1 / lam := by
    rw [← exp_mean h0, ← hA, integral_map (φ := A 0) (f := fun x => x) (h.meas (.inl 0)).aemeasurable aestronglyMeasurable_id]
  have hm : ∫ ω, S 0 ω ∂P < ∫ ω, A 0 ω ∂P := by
    rw [mA, lt_div_iff₀ h0]
    linarith
  have mstay : ∀ n, Measurable fun ω => wait (A · ω) (S · ω) n + S n ω := fun n => (h.wait_meas n).add (h.meas (.inr n))
  have mY : ∀ n k, Measurable fun ω => ∑ j ∈ Finset.range k, A (n + 1 + j) ω := fun n k =>
    Finset.measurable_sum _ fun j _ => h.meas (.inl (n + 1 + j))
  -- `k` or more left behind
  set E : ℕ → ℕ → Set Ω := fun n k => {ω | ∑ j ∈ Finset.range k, A (n + 1 + j) ω ≤ wait (A · ω) (S · ω) n + S n ω} with hE
  have mE : ∀ n k, MeasurableSet (E n k) := fun n k => measurableSet_le (mY n k) (mstay n)
  have sub : ∀ n k, E n (k + 1) ⊆ E n k := by
    intro n k ω hω
    simp only [hE, Set.mem_ofPred_eq, Finset.sum_range_succ] at hω ⊢
    have := hA0 (n + 1 + k) ω
    linarith
  -- `k` or more found
  set F : ℕ → ℕ → Set Ω := fun n k => if k ≤ n then E (n - k) k else ∅ with hF
  have mF : ∀ n k, MeasurableSet (F n k) := by
    intro n k
    simp only [hF]
    split
    · exact mE _ _
    · exact MeasurableSet.empty
  have subF : ∀ n k, F n (k + 1) ⊆ F n k := by
    intro n k ω hω
    simp only [hF] at hω ⊢
    split at hω
    · rename_i hk
      rw [if_pos (by omega)]
      obtain ⟨m, rfl⟩ := Nat.exists_eq_add_of_le' hk
      rw [Nat.add_sub_cancel] at hω
      rw [show m + (k + 1) - k = m + 1 by omega]
      simp only [hE, Set.mem_ofPred_eq, Finset.sum_range_succ'] at hω ⊢
      have e : ∑ j ∈ Finset.range k, A (m + 1 + (j + 1)) ω = ∑ j ∈ Finset.range k, A (m + 1 + 1 + j) ω :=
        Finset.sum_congr rfl fun j _ => by rw [show m + 1 + (j + 1) = m + 1 + 1 + j by omega]
      have w : wait (A · ω) (S · ω) m + S m ω - A (m + 1) ω ≤ wait (A · ω) (S · ω) (m + 1) := le_max_right _ _
      have := hS0 (m + 1) ω
      rw [e, Nat.add_zero] at hω
      linarith
    · exact hω.elim
  set p : ℕ → ENNReal := fun k => ⨆ n, P (E n k) with hp
  have pfin : ∀ k, p k ≠ ⊤ := fun k => ne_top_of_le_ne_top ENNReal.one_ne_top (iSup_le fun n => prob_le_one)
  have limE : ∀ k, Tendsto (fun n => P.real (E n k)) atTop (𝓝 (p k).toReal) := fun k =>
    (ENNReal.tendsto_toReal (pfin k)).comp (tendsto_atTop_iSup (h.left_ge_mono k))
  have limF : ∀ k, Tendsto (fun n => P.real (F n k)) atTop (𝓝 (p k).toReal) := by
    intro k
    refine (tendsto_add_atTop_iff_nat k).mp ?_
    refine (limE k).congr fun n => ?_
    simp only [hF]
    rw [if_pos (by omega), Nat.add_sub_cancel]
  have p0 : p 0 = 1 := by
    have : ∀ n, P (E n 0) = 1 := by
      intro n
      have e : E n 0 = Set.univ := by
        ext ω
        have : 0 ≤ wait (A · ω) (S · ω) n + S n ω := add_nonneg (wait_nonneg _ _ _) (hS0 n ω)
        simpa [hE] using this
      rw [e, measure_univ]
    simp [hp, this]
  have ptop : Tendsto (fun k => (p k).toReal) atTop (𝓝 0) := by
    have := (ENNReal.tendsto_toReal ENNReal.zero_ne_top).comp (h.left_few hA0 hS0 hm)
    rw [ENNReal.toReal_zero] at this
    exact this
  have eH : ∀ n k, {ω | ∑ j ∈ Finset.range k, A (n + 1 + j) ω ≤ wait (A · ω) (S · ω) n + S n ω ∧
      wait (A · ω) (S · ω) n + S n ω < ∑ j ∈ Finset.range (k + 1), A (n + 1 + j) ω} = E n k \ E n (k + 1) := by
    intro n k
    ext ω
    simp [hE]
  have rH : ∀ n k, P.real (E n k \ E n (k + 1)) = P.real (E n k) - P.real (E n (k + 1)) := fun n k =>
    measureReal_sdiff (sub n k) (mE n (k + 1))
  have limH : ∀ k, Tendsto (fun n => P.real (E n k \ E n (k + 1))) atTop (𝓝 ((p k).toReal - (p (k + 1)).toReal)) := by
    intro k
    simp_rw [rH]
    exact (limE k).sub (limE (k + 1))
  have pnn : ∀ k, 0 ≤ (p k).toReal - (p (k + 1)).toReal := fun k => ge_of_tendsto' (limH k) fun n => measureReal_nonneg
  have foundAt : ∀ ω b s s1 l n, Traj (c ω) b AloneOk s (s1 :: l) → s1.numArrivals = n → s.numArrivals = n + 1 →
      ∀ k : ℕ, (k : ℤ) ≤ s1.numSystem ↔ ω ∈ F n k := by
    intro ω b s s1 l n ht h1 h2 k
    simp only [hF]
    split
    · rename_i hkn
      exact C147_found (hc ω) ht (by omega) (by omega)
    · rename_i hkn
      have ht1 : Traj (c ω) b AloneOk s1 l := by cases ht; assumption
      obtain ⟨-, -, e⟩ := (hc ω).numbers ht1
      simp only [Set.mem_empty_iff_false, iff_false]
      omega
  have gen : ∀ z, 0 ≤ z → z < 1 → HasSum (fun k => z ^ k * ((p k).toReal - (p (k + 1)).toReal))
        ((1 - lam * ∫ ω, S 0 ω ∂P) * (1 - z) * (∫ ω, Real.exp (-(lam * (1 - z) * S 0 ω)) ∂P) /
          (∫ ω, Real.exp (-(lam * (1 - z) * S 0 ω)) ∂P - z)) := by
    intro z hz hz1
    have hsum := summable_geometric_of_lt_one hz hz1
    have one : ∀ k, (p k).toReal - (p (k + 1)).toReal ≤ 1 := fun k => le_of_tendsto' (limH k) fun n => measureReal_le_one
    have l1 := h.left_limit hS0 h0 hA hlt hz hz1
    simp_rw [eH] at l1
    have l2 : Tendsto (fun n => ∑' k, z ^ k * P.real (E n k \ E n (k + 1))) atTop
        (𝓝 (∑' k, z ^ k * ((p k).toReal - (p (k + 1)).toReal))) := by
      refine tendsto_tsum_of_dominated_convergence hsum (fun k => (limH k).const_mul _) (Eventually.of_forall fun n k => ?_)
      rw [Real.norm_eq_abs, abs_of_nonneg (mul_nonneg (pow_nonneg hz k) measureReal_nonneg)]
      exact mul_le_of_le_one_right (pow_nonneg hz k) measureReal_le_one
    rw [tendsto_nhds_unique l1 l2]
    refine (Summable.of_nonneg_of_le (fun k => mul_nonneg (pow_nonneg hz k) (pnn k)) (fun k => ?_) hsum).hasSum
    exact mul_le_of_le_one_right (pow_nonneg hz k) (one k)
  refine ⟨fun n k => F n k \ F n (k + 1), fun n k => E n k \ E n (k + 1), fun k => (p k).toReal - (p (k + 1)).toReal,
    fun n k => (mF n k).diff (mF n (k + 1)), fun n k => (mE n k).diff (mE n (k + 1)), fun ω b s s1 l n ht h1 h2 k => ?_,
    fun ω b s s1 l n ht h1 h2 k => ?_, fun k => ?_, limH, pnn, ?_, ?_, gen⟩
  · have i1 := foundAt ω b s s1 l n ht h1 h2 k
    have i2 := foundAt ω b s s1 l n ht h1 h2 (k + 1)
    rw [Set.mem_sdiff, ← i1, ← i2]
    push_cast
    omega
  · have i1 := C147_left (hc ω) ht h1 h2 k
    have i2 := C147_left (hc ω) ht h1 h2 (k + 1)
    rw [Set.mem_sdiff]
    simp only [hE, Set.mem_ofPred_eq]
    rw [← i1, ← i2]
    push_cast
    omega
  · refine ((limF k).sub (limF (k + 1))).congr fun n => ?_
    exact (measureReal_sdiff (subF n k) (mF n (k + 1))).symm
  · have tel : ∀ n, ∑ k ∈ Finset.range n, ((p k).toReal - (p (k + 1)).toReal) = 1 - (p n).toReal := by
      intro n
      rw [Finset.sum_range_sub', p0]
      simp
    refine (hasSum_iff_tendsto_nat_of_nonneg pnn 1).mpr ?_
    simp_rw [tel]
    simpa using ptop.const_sub 1
  · have g := (gen 0 le_rfl one_pos).tsum_eq
    rw [tsum_eq_single 0 (fun k hk => by simp [hk])] at g
    have pos : 0 < ∫ ω, Real.exp (-(lam * (1 - 0) * S 0 ω)) ∂P := by
      refine integral_exp_pos (exp_bounded (h.meas (.inr 0)) (hS0 0) ?_)
      linarith
    rw [sub_zero (∫ ω, Real.exp (-(lam * (1 - 0) * S 0 ω)) ∂P), mul_div_assoc, div_self pos.ne'] at g
    simpa using g

end

/-- Non-vacuity of C152: arrivals of rate 1/2, services of 0 or 3 with even chances: in the limit a quarter of the agents find the
queue empty and a quarter leave it empty. -/
example : ∃ (G H : ℕ → ℕ → Set (ℕ ⊕ ℕ → ℝ)) (π : ℕ → ℝ),
    (∀ ω b s s1 l n, Traj (givenQueue (fun i => |ω (.inl i)|) fun i => |ω (.inr i)|) b AloneOk s (s1 :: l) →
      s1.numArrivals = n → s.numArrivals = n + 1 → ∀ k : ℕ, s1.numSystem = k ↔ ω ∈ G n k) ∧
    (∀ ω b s s1 l n, Traj (givenQueue (fun i => |ω (.inl i)|) fun i => |ω (.inr i)|) b AloneOk s (s1 :: l) →
      s1.numDepartures = n → s.numDepartures = n + 1 → ∀ k : ℕ, s.numSystem = k ↔ ω ∈ H n k) ∧
    (∀ k, Tendsto (fun n => (Measure.infinitePi (laws (expMeasure (1 / 2)) coin)).real (G n k)) atTop (𝓝 (π k))) ∧
    (∀ k, Tendsto (fun n => (Measure.infinitePi (laws (expMeasure (1 / 2)) coin)).real (H n k)) atTop (𝓝 (π k))) ∧
    HasSum π 1 ∧ π 0 = 1 / 4 := by
  have hp : (0 : ℝ) < 1 / 2 := by norm_num
  have := isProbabilityMeasure_expMeasure hp
  obtain ⟨h1, -, h3, h4⟩ := C133_met (expMeasure (1 / 2)) coin (exp_int hp) coin_int
  rw [coin_mean] at h3
  obtain ⟨law, -, -⟩ := coin_facts
  obtain ⟨G, H, π, -, -, g1, g2, g3, g4, -, g5, g6, -⟩ := C152_found h1 hp law (by rw [h3]; norm_num) h4
  refine ⟨G, H, π, g1, g2, g3, g4, g5, ?_⟩
  rw [g6, h3]
  norm_num

end Verif.QueueSpec
