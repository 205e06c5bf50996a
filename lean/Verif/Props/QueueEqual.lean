import Verif.Props.QueueInvariant
import Verif.Props.QueueLeftLaw

/-! # C153: waiting times when services take as long in the mean as times between arrivals -/

set_option linter.unusedSectionVars false

namespace Verif.QueueSpec

open Filter Topology MeasureTheory ProbabilityTheory

/-- If the means are equal no law stays the same from agent to agent, except in the case of constant times. -/
theorem settled_equal {α σ η : Measure ℝ} [IsProbabilityMeasure α] [IsProbabilityMeasure σ] [IsProbabilityMeasure η]
    (hη : Settled α σ η) (hα : Integrable (fun x => x) α) (hσ : Integrable (fun x => x) σ) (he : ∫ x, x ∂σ = ∫ x, x ∂α) :
    ∀ᵐ p ∂σ.prod α, p.1 = p.2 := by
  set Q := η.prod (σ.prod α) with hQ
  have hneg := (settled_iff.mp hη).1
  have M0 : ∀ᵐ p ∂Q, 0 ≤ p.1 := by
    have : ∀ᵐ v ∂η, 0 ≤ v := by
      rw [ae_iff]
      simpa [Set.Iio_def] using hneg
    exact Measure.quasiMeasurePreserving_fst.ae this
  have iX' : Integrable (fun p : ℝ × ℝ => p.1 - p.2) (σ.prod α) := (hσ.comp_fst α).sub (hα.comp_snd σ)
  have iX : Integrable (fun p : ℝ × ℝ × ℝ => p.2.1 - p.2.2) Q := iX'.comp_snd η
  have mX' : ∫ p, (p.1 - p.2) ∂σ.prod α = 0 := by
    rw [integral_sub (hσ.comp_fst α) (hα.comp_snd σ), integral_fun_fst (fun x : ℝ => x), integral_fun_snd (fun x : ℝ => x)]
    simp [he]
  have mX : ∫ p, (p.2.1 - p.2.2) ∂Q = 0 := by
    rw [hQ, integral_fun_snd (fun p : ℝ × ℝ => p.1 - p.2), mX']
    simp
  have hm : Measurable fun p : ℝ × ℝ × ℝ => max 0 (p.1 + p.2.1 - p.2.2) := by fun_prop
  have same : ∀ f : ℝ → ℝ, Measurable f → ∫ p, f (max 0 (p.1 + p.2.1 - p.2.2)) ∂Q = ∫ p, f p.1 ∂Q := by
    intro f hf
    rw [← integral_map (φ := fun p : ℝ × ℝ × ℝ => max 0 (p.1 + p.2.1 - p.2.2)) (f := f) hm.aemeasurable
      hf.aestronglyMeasurable, hη, hQ, integral_fun_fst f]
    simp
  have near : ∀ p : ℝ × ℝ × ℝ, 0 ≤ p.1 → |max 0 (p.1 + p.2.1 - p.2.2) - p.1| ≤ |p.2.1 - p.2.2| := by
    intro p hp
    have := abs_max_sub_max_le_max 0 (p.1 + p.2.1 - p.2.2) 0 p.1
    rw [sub_self, abs_zero, max_eq_right hp] at this
    refine this.trans (max_le (abs_nonneg _) (le_of_eq ?_))
    congr 1
    ring
  -- the mean change of the waiting time is 0
  have change : ∫ p, (max 0 (p.1 + p.2.1 - p.2.2) - p.1) ∂Q = 0 := by
    have l1 : Tendsto (fun n : ℕ => ∫ p, (min (max 0 (p.1 + p.2.1 - p.2.2)) (n : ℝ) - min p.1 (n : ℝ)) ∂Q) atTop
        (𝓝 (∫ p, (max 0 (p.1 + p.2.1 - p.2.2) - p.1) ∂Q)) := by
      refine tendsto_integral_of_dominated_convergence (fun p => |p.2.1 - p.2.2|) (fun n => ?_) iX.abs (fun n => ?_) ?_
      · exact Measurable.aestronglyMeasurable (by fun_prop)
      · filter_upwards [M0] with p hp
        rw [Real.norm_eq_abs]
        refine (abs_min_sub_min_le_max _ _ _ _).trans ?_
        rw [sub_self, abs_zero, max_eq_left (abs_nonneg _)]
        exact near p hp
      · refine Eventually.of_forall fun p => ?_
        obtain ⟨N, hN⟩ := exists_nat_ge (max (max 0 (p.1 + p.2.1 - p.2.2)) p.1)
        refine tendsto_const_nhds.congr' ?_
        filter_upwards [eventually_ge_atTop N] with n hn
        have hn' : (N : ℝ) ≤ n := by exact_mod_cast hn
        rw [min_eq_left ((le_max_left _ _).trans (hN.trans hn')), min_eq_left ((le_max_right _ _).trans (hN.trans hn'))]
    refine tendsto_nhds_unique l1 (tendsto_const_nhds.congr fun n => ?_)
    have b : ∀ f : ℝ × ℝ × ℝ → ℝ, Measurable f → (∀ᵐ p ∂Q, 0 ≤ f p) → Integrable (fun p => min (f p) (n : ℝ)) Q := by
      intro f hf h0
      refine Integrable.of_bound (Measurable.aestronglyMeasurable (by fun_prop)) (n : ℝ) ?_
      filter_upwards [h0] with p hp
      rw [Real.norm_eq_abs, abs_of_nonneg (le_min hp (Nat.cast_nonneg n))]
      exact min_le_right _ _
    rw [integral_sub (b _ hm (Eventually.of_forall fun p => le_max_left _ _)) (b _ measurable_fst M0),
      same (fun x => min x (n : ℝ)) (by fun_prop), sub_self]
  have ichange : Integrable (fun p : ℝ × ℝ × ℝ => max 0 (p.1 + p.2.1 - p.2.2) - p.1) Q := by
    refine iX.mono (Measurable.aestronglyMeasurable (by fun_prop)) ?_
    filter_upwards [M0] with p hp
    rw [Real.norm_eq_abs, Real.norm_eq_abs]
    exact near p hp
  -- so nobody is ever idle
  have busy : ∀ᵐ p ∂Q, max 0 (p.1 + p.2.1 - p.2.2) = p.1 + (p.2.1 - p.2.2) := by
    have z : ∫ p, (max 0 (p.1 + p.2.1 - p.2.2) - p.1 - (p.2.1 - p.2.2)) ∂Q = 0 := by
      rw [integral_sub ichange iX, change, mX, sub_zero]
    have i0 : Integrable (fun p : ℝ × ℝ × ℝ => max 0 (p.1 + p.2.1 - p.2.2) - p.1 - (p.2.1 - p.2.2)) Q := ichange.sub iX
    rw [integral_eq_zero_iff_of_nonneg (fun p => ?_) i0] at z
    · filter_upwards [z] with p hp
      simp only [Pi.zero_apply] at hp
      linarith
    · have := le_max_right 0 (p.1 + p.2.1 - p.2.2)
      simp only [Pi.zero_apply]
      linarith
  have ie : ∀ f : ℝ × ℝ × ℝ → ℝ, Measurable f → (∀ᵐ p ∂Q, 0 ≤ f p) → Integrable (fun p => Real.exp (-f p)) Q := by
    intro f hf h0
    refine Integrable.of_bound (Measurable.aestronglyMeasurable (by fun_prop)) 1 ?_
    filter_upwards [h0] with p hp
    rw [Real.norm_eq_abs, abs_of_pos (Real.exp_pos _)]
    exact Real.exp_le_one_iff.mpr (by linarith)
  have i1 : Integrable (fun p : ℝ × ℝ × ℝ => Real.exp (-max 0 (p.1 + p.2.1 - p.2.2))) Q :=
    ie _ hm (Eventually.of_forall fun p => le_max_left _ _)
  have i2 : Integrable (fun p : ℝ × ℝ × ℝ => Real.exp (-p.1)) Q := ie _ measurable_fst M0
  have i3 : Integrable (fun p : ℝ × ℝ × ℝ => Real.exp (-p.1) * (p.2.1 - p.2.2)) Q := by
    refine iX.mono (Measurable.aestronglyMeasurable (by fun_prop)) ?_
    filter_upwards [M0] with p hp
    rw [norm_mul, Real.norm_eq_abs, abs_of_pos (Real.exp_pos _)]
    exact mul_le_of_le_one_left (norm_nonneg _) (Real.exp_le_one_iff.mpr (by linarith))
  have m3 : ∫ p, Real.exp (-p.1) * (p.2.1 - p.2.2) ∂Q = 0 := by
    rw [hQ, integral_prod_mul (fun x : ℝ => Real.exp (-x)) (fun p : ℝ × ℝ => p.1 - p.2), mX', mul_zero]
  have i4 : Integrable (fun p : ℝ × ℝ × ℝ => Real.exp (-max 0 (p.1 + p.2.1 - p.2.2)) - Real.exp (-p.1)) Q := i1.sub i2
  have i5 : Integrable (fun p : ℝ × ℝ × ℝ =>
      Real.exp (-max 0 (p.1 + p.2.1 - p.2.2)) - Real.exp (-p.1) + Real.exp (-p.1) * (p.2.1 - p.2.2)) Q := i4.add i3
  have z : ∫ p, (Real.exp (-max 0 (p.1 + p.2.1 - p.2.2)) - Real.exp (-p.1) + Real.exp (-p.1) * (p.2.1 - p.2.2)) ∂Q = 0 := by
    rw [integral_add i4 i3, integral_sub i1 i2, m3, same (fun x => Real.exp (-x)) (by fun_prop)]
    simp
  have form : ∀ᵐ p ∂Q, Real.exp (-max 0 (p.1 + p.2.1 - p.2.2)) - Real.exp (-p.1) + Real.exp (-p.1) * (p.2.1 - p.2.2) =
      Real.exp (-p.1) * (Real.exp (-(p.2.1 - p.2.2)) - (-(p.2.1 - p.2.2) + 1)) := by
    filter_upwards [busy] with p hp
    rw [hp, neg_add, Real.exp_add]
    ring
  rw [integral_eq_zero_iff_of_nonneg_ae ?_ i5] at z
  · have fin : ∀ᵐ p ∂Q, p.2.1 = p.2.2 := by
      filter_upwards [z, form] with p h1 h2
      rw [h2, Pi.zero_apply] at h1
      by_contra hne
      have := Real.add_one_lt_exp (x := -(p.2.1 - p.2.2)) (by intro h; exact hne (by linarith))
      rcases mul_eq_zero.mp h1 with h | h
      · exact (Real.exp_pos _).ne' h
      · linarith
    have hs : MeasurableSet {p : ℝ × ℝ | p.1 = p.2} := measurableSet_eq_fun measurable_fst measurable_snd
    have e : Q.map Prod.snd = σ.prod α := by
      rw [hQ, Measure.map_snd_prod]
      simp
    rw [← e]
    exact (ae_map_iff measurable_snd.aemeasurable hs).mpr fin
  · filter_upwards [form] with p hp
    rw [hp]
    exact mul_nonneg (Real.exp_pos _).le (by have := Real.add_one_le_exp (-(p.2.1 - p.2.2)); linarith)

section
variable {Ω : Type*} [MeasurableSpace Ω] {P : Measure Ω} [IsProbabilityMeasure P] {A S : ℕ → Ω → ℝ}

theorem RenewalInput.pair_law (h : RenewalInput P A S) (n : ℕ) :
    P.map (fun ω => (S n ω, A (n + 1) ω)) = (P.map (S 0)).prod (P.map (A 0)) := by
  have hA : ∀ i, Measurable (A i) := fun i => h.meas (.inl i)
  have hS : ∀ i, Measurable (S i) := fun i => h.meas (.inr i)
  have h1 : S n ⟂ᵢ[P] A (n + 1) := h.indep.indepFun (i := .inr n) (j := .inl (n + 1)) (by simp)
  rw [(indepFun_iff_map_prod_eq_prod_map_map (hS n).aemeasurable (hA (n + 1)).aemeasurable).mp h1, (h.svc n).map_eq,
    (h.arr (n + 1)).map_eq]

/-- With equal means the excesses are unbounded. -/
theorem RenewalInput.equal_zero (h : RenewalInput P A S) (he : ∫ ω, S 0 ω ∂P = ∫ ω, A 0 ω ∂P)
    (hne : ¬ ∀ᵐ ω ∂P, S 0 ω = A 1 ω) (x : ℝ) : P {ω | ∀ k, excess (A · ω) (S · ω) k ≤ x} = 0 := by
  by_contra hx
  refine hne ?_
  have mA : Measurable (A 0) := h.meas (.inl 0)
  have mS : Measurable (S 0) := h.meas (.inr 0)
  have : IsProbabilityMeasure (P.map (A 0)) := Measure.isProbabilityMeasure_map mA.aemeasurable
  have : IsProbabilityMeasure (P.map (S 0)) := Measure.isProbabilityMeasure_map mS.aemeasurable
  set D : Set Ω := {ω | BddAbove (Set.range fun k => excess (A · ω) (S · ω) k)} with hD
  have mD : MeasurableSet D := by
    have : D = ⋃ N : ℕ, ⋂ k, {ω | excess (A · ω) (S · ω) k ≤ N} := by
      ext ω
      simp only [hD, Set.mem_ofPred_eq, Set.mem_iUnion, Set.mem_iInter]
      constructor
      · rintro ⟨y, hy⟩
        obtain ⟨N, hN⟩ := exists_nat_ge y
        exact ⟨N, fun k => (hy ⟨k, rfl⟩).trans hN⟩
      · rintro ⟨N, hN⟩
        exact ⟨N, by rintro _ ⟨k, rfl⟩; exact hN k⟩
    rw [this]
    exact MeasurableSet.iUnion fun N => MeasurableSet.iInter fun k => measurableSet_le (h.excess_meas k) measurable_const
  have D0 : P D ≠ 0 := fun h0 => hx (measure_mono_null (t := D) (fun ω hω => by
    rw [Set.mem_ofPred_eq] at hω
    exact ⟨x, by rintro _ ⟨k, rfl⟩; exact hω k⟩) h0)
  have := cond_isProbabilityMeasure D0
  have := Measure.isProbabilityMeasure_map (μ := cond P D) h.top_meas.aemeasurable
  have hset := h.part_settled (η := (cond P D).map (top A S)) D0 (measure_ne_top P D) fun y => by
    have e : {ω | ∀ k, excess (A · ω) (S · ω) k ≤ y} = D ∩ top A S ⁻¹' Set.Iic y := by
      ext ω
      constructor
      · intro hω
        exact ⟨⟨y, by rintro _ ⟨k, rfl⟩; exact hω k⟩, ciSup_le hω⟩
      · rintro ⟨h1, h2⟩ k
        exact (le_ciSup h1 k).trans h2
    rw [Measure.map_apply h.top_meas measurableSet_Iic, cond_apply mD, ← mul_assoc,
      ENNReal.mul_inv_cancel D0 (measure_ne_top P D), one_mul, ← e]
    exact (h.wait_limit_law y).2
  have iA : Integrable (fun x : ℝ => x) (P.map (A 0)) :=
    (integrable_map_measure (f := A 0) (g := fun x : ℝ => x) aestronglyMeasurable_id mA.aemeasurable).mpr h.arr_int
  have iS : Integrable (fun x : ℝ => x) (P.map (S 0)) :=
    (integrable_map_measure (f := S 0) (g := fun x : ℝ => x) aestronglyMeasurable_id mS.aemeasurable).mpr h.svc_int
  have he' : ∫ x, x ∂P.map (S 0) = ∫ x, x ∂P.map (A 0) := by
    rw [integral_map (φ := S 0) (f := fun x => x) mS.aemeasurable aestronglyMeasurable_id,
      integral_map (φ := A 0) (f := fun x => x) mA.aemeasurable aestronglyMeasurable_id, he]
  have r := settled_equal hset iA iS he'
  rw [← h.pair_law 0] at r
  exact ae_of_ae_map (mS.prodMk (h.meas (.inl 1))).aemeasurable r

theorem RenewalInput.equal_waits (h : RenewalInput P A S) (he : ∫ ω, S 0 ω ∂P = ∫ ω, A 0 ω ∂P)
    (hne : ¬ ∀ᵐ ω ∂P, S 0 ω = A 1 ω) (x : ℝ) : Tendsto (fun n => P {ω | wait (A · ω) (S · ω) n ≤ x}) atTop (𝓝 0) := by
  have := (h.wait_limit_law x).2
  rwa [h.equal_zero he hne] at this

/-- C153: if times between arrivals and services are independent, each of one law, with equal means, and it is not certain that a
service takes as long as a time between arrivals, then the waiting times grow beyond all bounds in probability. -/
theorem C153_waits (h : RenewalInput P A S) (he : ∫ ω, S 0 ω ∂P = ∫ ω, A 0 ω ∂P) (hne : ¬ ∀ᵐ ω ∂P, S 0 ω = A 1 ω)
    {c : Ω → QCfg (WithTop ℝ)} (hc : ∀ ω, OneServer (c ω) (A · ω) (S · ω)) :
    ∃ W : ℕ → Ω → ℝ, (∀ n, Measurable (W n)) ∧ Waits c W ∧ ∀ x, Tendsto (fun n => P {ω | W n ω ≤ x}) atTop (𝓝 0) :=
  ⟨fun n ω => wait (A · ω) (S · ω) n, h.wait_meas, waits hc, h.equal_waits he hne⟩

/-- C153: in the other case it is certain that nobody waits. -/
theorem C153_constant (h : RenewalInput P A S) (heq : ∀ᵐ ω ∂P, S 0 ω = A 1 ω)
    {c : Ω → QCfg (WithTop ℝ)} (hc : ∀ ω, OneServer (c ω) (A · ω) (S · ω)) :
    ∃ W : ℕ → Ω → ℝ, (∀ n, Measurable (W n)) ∧ Waits c W ∧ ∀ᵐ ω ∂P, ∀ n, W n ω = 0 := by
  refine ⟨fun n ω => wait (A · ω) (S · ω) n, h.wait_meas, waits hc, ?_⟩
  have hs : MeasurableSet {p : ℝ × ℝ | p.1 = p.2} := measurableSet_eq_fun measurable_fst measurable_snd
  have mp : ∀ n, AEMeasurable (fun ω => (S n ω, A (n + 1) ω)) P := fun n =>
    ((h.meas (.inr n)).prodMk (h.meas (.inl (n + 1)))).aemeasurable
  have all : ∀ n, ∀ᵐ ω ∂P, S n ω = A (n + 1) ω := by
    intro n
    have r := (ae_map_iff (mp 0) hs).mpr heq
    rw [h.pair_law 0, ← h.pair_law n] at r
    exact ae_of_ae_map (mp n) r
  filter_upwards [ae_all_iff.mpr all] with ω hω n
  induction n with
  | zero => rfl
  | succ n ih =>
    change max 0 (wait (A · ω) (S · ω) n + S n ω - A (n + 1) ω) = 0
    rw [ih, hω n]
    simp

/-- C153: and the chances that the `n`-th agent leaves `k` or more behind, and that it finds `k` or more, tend to 1. -/
theorem C153_numbers (h : RenewalInput P A S) (he : ∫ ω, S 0 ω ∂P = ∫ ω, A 0 ω ∂P) (hne : ¬ ∀ᵐ ω ∂P, S 0 ω = A 1 ω)
    {c : Ω → QCfg (WithTop ℝ)} (hc : ∀ ω, OneServer (c ω) (A · ω) (S · ω)) :
    ∃ E F : ℕ → ℕ → Set Ω, (∀ n k, MeasurableSet (E n k)) ∧ (∀ n k, MeasurableSet (F n k)) ∧
      (∀ ω b s s1 l n, Traj (c ω) b AloneOk s (s1 :: l) → s1.numDepartures = n → s.numDepartures = n + 1 →
        ∀ k : ℕ, (k : ℤ) ≤ s.numSystem ↔ ω ∈ E n k) ∧
      (∀ ω b s s1 l n, Traj (c ω) b AloneOk s (s1 :: l) → s1.numArrivals = n → s.numArrivals = n + 1 →
        ∀ k : ℕ, (k : ℤ) ≤ s1.numSystem ↔ ω ∈ F n k) ∧
      (∀ k, Tendsto (fun n => P (E n k)) atTop (𝓝 1)) ∧ (∀ k, Tendsto (fun n => P (F n k)) atTop (𝓝 1)) := by
  have mstay : ∀ n, Measurable fun ω => wait (A · ω) (S · ω) n + S n ω := fun n => (h.wait_meas n).add (h.meas (.inr n))
  have mY : ∀ n k, Measurable fun ω => ∑ j ∈ Finset.range k, A (n + 1 + j) ω := fun n k =>
    Finset.measurable_sum _ fun j _ => h.meas (.inl (n + 1 + j))
  set E : ℕ → ℕ → Set Ω := fun n k => {ω | ∑ j ∈ Finset.range k, A (n + 1 + j) ω ≤ wait (A · ω) (S · ω) n + S n ω} with hE
  have mE : ∀ n k, MeasurableSet (E n k) := fun n k => measurableSet_le (mY n k) (mstay n)
  have f1 : ∀ x : ℝ, Tendsto (fun n => P {ω | x ≤ wait (A · ω) (S · ω) n}) atTop (𝓝 1) := by
    intro x
    have l := ENNReal.Tendsto.sub (tendsto_const_nhds (x := (1 : ENNReal))) (h.equal_waits he hne x) (.inl ENNReal.one_ne_top)
    rw [tsub_zero] at l
    refine tendsto_of_tendsto_of_tendsto_of_le_of_le l tendsto_const_nhds (fun n => ?_) fun n => prob_le_one
    rw [← prob_compl_eq_one_sub (measurableSet_le (h.wait_meas n) measurable_const)]
    refine measure_mono fun ω hω => ?_
    simp only [Set.mem_compl_iff, Set.mem_ofPred_eq, not_le] at hω ⊢
    exact hω.le
  have limE : ∀ k, Tendsto (fun n => P (E n k)) atTop (𝓝 1) := fun k => h.left_many_of f1 k
  refine ⟨E, fun n k => if k ≤ n then E (n - k) k else ∅, mE, fun n k => ?_,
    fun ω b s s1 l n ht h1 h2 k => C147_left (hc ω) ht h1 h2 k, fun ω b s s1 l n ht h1 h2 k => ?_, limE, fun k => ?_⟩
  · dsimp only
    split
    · exact mE _ _
    · exact MeasurableSet.empty
  · dsimp only
    split
    · rename_i hkn
      exact C147_found (hc ω) ht (by omega) (by omega)
    · rename_i hkn
      have ht1 : Traj (c ω) b AloneOk s1 l := by cases ht; assumption
      obtain ⟨-, -, e⟩ := (hc ω).numbers ht1
      simp only [Set.mem_empty_iff_false, iff_false]
      omega
  · refine (tendsto_add_atTop_iff_nat k).mp ?_
    refine (limE k).congr fun n => ?_
    dsimp only
    rw [if_pos (by omega), Nat.add_sub_cancel]

end

/-- Non-vacuity of C153: arrivals every 3/2, services of 0 or 3 with even chances: waiting times and numbers grow. -/
example : (∃ W : ℕ → (ℕ ⊕ ℕ → ℝ) → ℝ, Waits (fun ω => givenQueue (fun i => |ω (.inl i)|) fun i => |ω (.inr i)|) W ∧
    ∀ x, Tendsto (fun n => Measure.infinitePi (laws (Measure.dirac (3 / 2)) coin) {ω | W n ω ≤ x}) atTop (𝓝 0)) ∧
    ∃ E : ℕ → ℕ → Set (ℕ ⊕ ℕ → ℝ),
      (∀ ω b s s1 l n, Traj (givenQueue (fun i => |ω (.inl i)|) fun i => |ω (.inr i)|) b AloneOk s (s1 :: l) →
        s1.numDepartures = n → s.numDepartures = n + 1 → ∀ k : ℕ, (k : ℤ) ≤ s.numSystem ↔ ω ∈ E n k) ∧
      ∀ k, Tendsto (fun n => Measure.infinitePi (laws (Measure.dirac (3 / 2)) coin) (E n k)) atTop (𝓝 1) := by
  obtain ⟨h1, h2, h3, h4⟩ := C133_met (Measure.dirac (3 / 2)) coin (integrable_dirac (by simp)) coin_int
  rw [integral_dirac, abs_of_pos (by norm_num)] at h2
  rw [coin_mean] at h3
  have ev : ∀ x, (Measure.infinitePi (laws (Measure.dirac (3 / 2)) coin)).map (fun ω => ω x) =
      laws (Measure.dirac (3 / 2)) coin x := fun x => Measure.infinitePi_map_eval _ x
  have hne : ¬ ∀ᵐ ω ∂Measure.infinitePi (laws (Measure.dirac (3 / 2)) coin), |ω (.inr 0)| = |ω (.inl 1)| := by
    intro hall
    have hA : ∀ᵐ ω ∂Measure.infinitePi (laws (Measure.dirac (3 / 2)) coin), ω (.inl 1) = 3 / 2 := by
      refine ae_of_ae_map (f := fun ω : ℕ ⊕ ℕ → ℝ => ω (.inl 1)) (p := fun x => x = 3 / 2)
        (measurable_pi_apply _).aemeasurable ?_
      rw [ev]
      exact (ae_dirac_iff (measurableSet_eq (a := (3 / 2 : ℝ)))).mpr rfl
    have hS : ∀ᵐ ω ∂Measure.infinitePi (laws (Measure.dirac (3 / 2)) coin), |ω (.inr 0)| = 3 / 2 := by
      filter_upwards [hall, hA] with ω e1 e2
      rw [e1, e2, abs_of_pos (by norm_num)]
    have ms : MeasurableSet {x : ℝ | |x| = 3 / 2} := measurableSet_eq_fun (by fun_prop) measurable_const
    have hC := (ae_map_iff (f := fun ω : ℕ ⊕ ℕ → ℝ => ω (.inr 0)) (p := fun x => |x| = 3 / 2)
      (measurable_pi_apply _).aemeasurable ms).mpr hS
    rw [ev] at hC
    change ∀ᵐ x ∂coin, |x| = 3 / 2 at hC
    rw [coin, ae_add_measure_iff] at hC
    have := (Measure.ae_ennreal_smul_measure_iff (by simp)).mp hC.1
    rw [ae_dirac_iff ms] at this
    norm_num at this
  have he := h3.trans h2.symm
  obtain ⟨W, -, g1, g2⟩ := C153_waits h1 he hne h4
  obtain ⟨E, F, -, -, g3, -, g4, -⟩ := C153_numbers h1 he hne h4
  exact ⟨⟨W, g1, g2⟩, E, g3, g4⟩

end Verif.QueueSpec
