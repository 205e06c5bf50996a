import Verif.Props.QueueLeft

/-! # C148: how many agents an agent leaves behind, with Poisson arrivals -/

set_option linter.unusedSectionVars false

namespace Verif.QueueSpec

open Filter Topology MeasureTheory ProbabilityTheory

/-- The chance that `k` exponential times fit into `t`, but not one more. -/
theorem power_poisson {lam : ℝ} (h0 : 0 < lam) (k : ℕ) (t : ℝ) :
    ∫⁻ y, (Set.Iic t).indicator (fun y => ENNReal.ofReal (Real.exp (-(lam * (t - y))))) y ∂power (expMeasure lam) k =
      if 0 ≤ t then ENNReal.ofReal (Real.exp (-(lam * t)) * (lam * t) ^ k / k.factorial) else 0 := by
  have := isProbabilityMeasure_expMeasure h0
  have hm : ∀ t : ℝ, Measurable ((Set.Iic t).indicator fun y => ENNReal.ofReal (Real.exp (-(lam * (t - y))))) := fun t =>
    (by fun_prop : Measurable fun y => ENNReal.ofReal (Real.exp (-(lam * (t - y))))).indicator measurableSet_Iic
  induction k generalizing t with
  | zero =>
    rw [power, lintegral_dirac' _ (hm t)]
    by_cases ht : 0 ≤ t
    · simp [ht]
    · simp [ht]
  | succ k ih =>
    have := power_prob (expMeasure lam) k
    rw [power, Measure.conv_comm, Measure.lintegral_conv (hm t)]
    have e : ∀ a : ℝ, ∫⁻ y, (Set.Iic t).indicator (fun y => ENNReal.ofReal (Real.exp (-(lam * (t - y))))) (a + y)
        ∂power (expMeasure lam) k =
        if 0 ≤ t - a then ENNReal.ofReal (Real.exp (-(lam * (t - a))) * (lam * (t - a)) ^ k / k.factorial) else 0 := by
      intro a
      rw [← ih]
      refine lintegral_congr fun y => ?_
      by_cases hy : a + y ≤ t
      · rw [Set.indicator_of_mem (by exact hy), Set.indicator_of_mem (show y ∈ Set.Iic (t - a) by simp; linarith)]
        congr 4
        ring
      · rw [Set.indicator_of_notMem (by exact hy), Set.indicator_of_notMem (show y ∉ Set.Iic (t - a) by simp; linarith)]
    simp_rw [e]
    have hmeas : Measurable fun a : ℝ => if 0 ≤ t - a then
        ENNReal.ofReal (Real.exp (-(lam * (t - a))) * (lam * (t - a)) ^ k / k.factorial) else 0 :=
      Measurable.ite (measurableSet_le measurable_const (by fun_prop)) (by fun_prop) measurable_const
    rw [exp_lintegral lam hmeas]
    by_cases ht : 0 ≤ t
    · rw [if_pos ht, ← Set.Ioc_union_Ioi_eq_Ioi ht, lintegral_union measurableSet_Ioi Set.Ioc_disjoint_Ioi_same]
      have z : ∫⁻ a in Set.Ioi t, ENNReal.ofReal (lam * Real.exp (-(lam * a))) * (if 0 ≤ t - a then
          ENNReal.ofReal (Real.exp (-(lam * (t - a))) * (lam * (t - a)) ^ k / k.factorial) else 0) = 0 := by
        rw [setLIntegral_congr_fun (g := fun _ => 0) measurableSet_Ioi]
        · simp
        · intro a ha
          dsimp only
          rw [if_neg (by have : t < a := ha; linarith), mul_zero]
      have hf : (k.factorial : ℝ) ≠ 0 := by positivity
      have hk1 : (k + 1 : ℝ) ≠ 0 := by positivity
      have hG : ∀ a : ℝ, HasDerivAt (fun a => -(Real.exp (-(lam * t)) * (lam * (t - a)) ^ (k + 1) / ((k + 1).factorial : ℝ)))
          (lam * Real.exp (-(lam * t)) * (lam * (t - a)) ^ k / k.factorial) a := by
        intro a
        have h1 : HasDerivAt (fun a => lam * (t - a)) (-lam) a := by
          have := ((hasDerivAt_id a).const_sub t).const_mul lam
          simpa using this
        have h2 := (((h1.pow (k + 1)).const_mul (Real.exp (-(lam * t)))).div_const ((k + 1).factorial : ℝ)).neg
        refine h2.congr_deriv ?_
        rw [Nat.factorial_succ]
        push_cast
        field_simp
      have p : ∫⁻ a in Set.Ioc 0 t, ENNReal.ofReal (lam * Real.exp (-(lam * a))) * (if 0 ≤ t - a then
          ENNReal.ofReal (Real.exp (-(lam * (t - a))) * (lam * (t - a)) ^ k / k.factorial) else 0) =
          ∫⁻ a in Set.Ioc 0 t, ENNReal.ofReal (lam * Real.exp (-(lam * t)) * (lam * (t - a)) ^ k / k.factorial) := by
        refine setLIntegral_congr_fun measurableSet_Ioc fun a ha => ?_
        rw [if_pos (by linarith [ha.2]), ← ENNReal.ofReal_mul (by positivity)]
        congr 1
        rw [show -(lam * t) = -(lam * a) + -(lam * (t - a)) by ring, Real.exp_add]
        ring
      rw [z, add_zero, p, lintegral_part ht hG (by fun_prop) fun a ha => ?_]
      · congr 1
        simp
      · have : 0 ≤ t - a := by linarith [ha.2]
        positivity
    · rw [if_neg ht, setLIntegral_congr_fun (g := fun _ => 0) measurableSet_Ioi]
      · simp
      · intro a ha
        dsimp only
        rw [if_neg (by have : 0 < a := ha; intro; linarith), mul_zero]

section
variable {Ω : Type*} [MeasurableSpace Ω] {P : Measure Ω} [IsProbabilityMeasure P] {A S : ℕ → Ω → ℝ}

/-- How long an agent stays does not depend on the times between later arrivals. -/
theorem RenewalInput.stay_pair (h : RenewalInput P A S) (n k : ℕ) :
    (fun ω => wait (A · ω) (S · ω) n + S n ω) ⟂ᵢ[P] fun ω => (∑ j ∈ Finset.range k, A (n + 1 + j) ω, A (n + 1 + k) ω) := by
  have h0 := indep_iSup_of_disjoint (fun x => (h.meas x).comap_le) h.indep.iIndep
    (disjoint_compl_left (a := {x : ℕ ⊕ ℕ | ∃ j, x = .inl (n + 1 + j)}))
  have hone : ∀ T : Set (ℕ ⊕ ℕ), ∀ x ∈ T,
      Measurable[⨆ x ∈ T, (inferInstance : MeasurableSpace ℝ).comap (Sum.elim A S x)] (Sum.elim A S x) := by
    intro T x hx
    exact measurable_iff_comap_le.mpr (le_iSup₂_of_le x hx le_rfl)
  have h1 := hone ({x : ℕ ⊕ ℕ | ∃ j, x = .inl (n + 1 + j)}ᶜ) (.inr n) (by simp)
  have h2 : Measurable[⨆ x ∈ {x : ℕ ⊕ ℕ | ∃ j, x = .inl (n + 1 + j)}, (inferInstance : MeasurableSpace ℝ).comap (Sum.elim A S x)]
      fun ω => (∑ j ∈ Finset.range k, A (n + 1 + j) ω, A (n + 1 + k) ω) :=
    Measurable.prodMk (Finset.measurable_sum _ fun j _ => hone {x : ℕ ⊕ ℕ | ∃ j, x = .inl (n + 1 + j)} (.inl (n + 1 + j)) ⟨j, rfl⟩)
      (hone {x : ℕ ⊕ ℕ | ∃ j, x = .inl (n + 1 + j)} (.inl (n + 1 + k)) ⟨k, rfl⟩)
  have h3 : Measurable[⨆ x ∈ {x : ℕ ⊕ ℕ | ∃ j, x = .inl (n + 1 + j)}ᶜ, (inferInstance : MeasurableSpace ℝ).comap (Sum.elim A S x)]
      fun ω => wait (A · ω) (S · ω) n := by
    have := waitFrom_past (A := A) (S := S) 0 n
    simp only [waitFrom_zero] at this
    refine this.mono (biSup_mono fun x hx => ?_) le_rfl
    rintro ⟨j, rfl⟩
    have : n + 1 + j ≤ n := hx
    omega
  refine (IndepFun_iff_Indep _ _ _).mpr ?_
  refine indep_of_indep_of_le_left (indep_of_indep_of_le_right h0 ?_) ?_
  · exact measurable_iff_comap_le.mp h2
  · exact measurable_iff_comap_le.mp (h3.add h1)

/-- The number of arrivals during a stay, given how long it takes, is Poisson. -/
theorem RenewalInput.left_law (h : RenewalInput P A S) (hS0 : ∀ i ω, 0 ≤ S i ω) {lam : ℝ} (h0 : 0 < lam)
    (hA : P.map (A 0) = expMeasure lam) (n k : ℕ) :
    P {ω | ∑ j ∈ Finset.range k, A (n + 1 + j) ω ≤ wait (A · ω) (S · ω) n + S n ω ∧
        wait (A · ω) (S · ω) n + S n ω < ∑ j ∈ Finset.range (k + 1), A (n + 1 + j) ω} =
      ∫⁻ ω, ENNReal.ofReal (Real.exp (-(lam * (wait (A · ω) (S · ω) n + S n ω))) *
        (lam * (wait (A · ω) (S · ω) n + S n ω)) ^ k / k.factorial) ∂P := by
  have := isProbabilityMeasure_expMeasure h0
  have := power_prob (expMeasure lam) k
  set stay : Ω → ℝ := fun ω => wait (A · ω) (S · ω) n + S n ω with hstay
  have mstay : Measurable stay := (h.wait_meas n).add (h.meas (.inr n))
  have mY : Measurable fun ω => ∑ j ∈ Finset.range k, A (n + 1 + j) ω :=
    Finset.measurable_sum _ fun j _ => h.meas (.inl (n + 1 + j))
  have mA : Measurable (A (n + 1 + k)) := h.meas (.inl (n + 1 + k))
  have hset : MeasurableSet {p : ℝ × ℝ × ℝ | p.2.1 ≤ p.1 ∧ p.1 < p.2.1 + p.2.2} :=
    (measurableSet_le (f := fun p : ℝ × ℝ × ℝ => p.2.1) (g := fun p => p.1) (by fun_prop) (by fun_prop)).inter
      (measurableSet_lt (f := fun p : ℝ × ℝ × ℝ => p.1) (g := fun p => p.2.1 + p.2.2) (by fun_prop) (by fun_prop))
  have pair : P.map (fun ω => (∑ j ∈ Finset.range k, A (n + 1 + j) ω, A (n + 1 + k) ω)) =
      (power (expMeasure lam) k).prod (expMeasure lam) := by
    have hi : iIndepFun (fun j => A (n + 1 + j)) P :=
      h.indep.precomp (g := fun j => .inl (n + 1 + j)) (fun i j hij => by simpa using hij)
    have h1 := hi.indepFun_sum_range_succ (fun j => h.meas (.inl (n + 1 + j))) k
    rw [show (∑ j ∈ Finset.range k, A (n + 1 + j)) = fun ω => ∑ j ∈ Finset.range k, A (n + 1 + j) ω by funext ω; simp] at h1
    rw [(indepFun_iff_map_prod_eq_prod_map_map mY.aemeasurable mA.aemeasurable).mp h1, h.sum_power, (h.arr (n + 1 + k)).map_eq, hA]
  have e : {ω | ∑ j ∈ Finset.range k, A (n + 1 + j) ω ≤ stay ω ∧ stay ω < ∑ j ∈ Finset.range (k + 1), A (n + 1 + j) ω} =
      (fun ω => (stay ω, (∑ j ∈ Finset.range k, A (n + 1 + j) ω, A (n + 1 + k) ω))) ⁻¹'
        {p : ℝ × ℝ × ℝ | p.2.1 ≤ p.1 ∧ p.1 < p.2.1 + p.2.2} := by
    ext ω
    simp [Finset.sum_range_succ]
  have := Measure.isProbabilityMeasure_map (μ := P) mstay.aemeasurable
  rw [e, ← Measure.map_apply (mstay.prodMk (mY.prodMk mA)) hset,
    (indepFun_iff_map_prod_eq_prod_map_map mstay.aemeasurable (mY.prodMk mA).aemeasurable).mp (h.stay_pair n k), pair,
    Measure.prod_apply hset, lintegral_map (measurable_measure_prodMk_left hset) mstay]
  refine lintegral_congr fun ω => ?_
  have hpos : 0 ≤ stay ω := add_nonneg (wait_nonneg _ _ _) (hS0 n ω)
  have hp := power_poisson h0 k (stay ω)
  rw [if_pos hpos] at hp
  rw [← hp, Measure.prod_apply (measurable_prodMk_left hset)]
  refine lintegral_congr fun y => ?_
  by_cases hy : y ≤ stay ω
  · rw [Set.indicator_of_mem (by exact hy)]
    have e1 : Prod.mk y ⁻¹' (Prod.mk (stay ω) ⁻¹' {p : ℝ × ℝ × ℝ | p.2.1 ≤ p.1 ∧ p.1 < p.2.1 + p.2.2}) = Set.Ioi (stay ω - y) := by
      ext a
      simp only [Set.mem_preimage, Set.mem_ofPred_eq, Set.mem_Ioi]
      constructor
      · intro h; linarith [h.2]
      · intro h; exact ⟨hy, by linarith⟩
    have := exp_noAtoms lam
    rw [e1, measure_congr (μ := expMeasure lam) (Ioi_ae_eq_Ici (a := stay ω - y)), exp_Ici h0 (by linarith)]
  · rw [Set.indicator_of_notMem (by exact hy)]
    have e1 : Prod.mk y ⁻¹' (Prod.mk (stay ω) ⁻¹' {p : ℝ × ℝ × ℝ | p.2.1 ≤ p.1 ∧ p.1 < p.2.1 + p.2.2}) = ∅ := by
      ext a
      simp [hy]
    rw [e1, measure_empty]

/-- The generating function of the number left behind. -/
theorem RenewalInput.left_generating (h : RenewalInput P A S) (hS0 : ∀ i ω, 0 ≤ S i ω) {lam : ℝ} (h0 : 0 < lam)
    (hA : P.map (A 0) = expMeasure lam) (n : ℕ) {z : ℝ} (hz : 0 ≤ z) :
    ∑' k, z ^ k * P.real {ω | ∑ j ∈ Finset.range k, A (n + 1 + j) ω ≤ wait (A · ω) (S · ω) n + S n ω ∧
        wait (A · ω) (S · ω) n + S n ω < ∑ j ∈ Finset.range (k + 1), A (n + 1 + j) ω} =
      ∫ ω, Real.exp (-(lam * (1 - z) * (wait (A · ω) (S · ω) n + S n ω))) ∂P := by
  set stay : Ω → ℝ := fun ω => wait (A · ω) (S · ω) n + S n ω with hstay
  have mstay : Measurable stay := (h.wait_meas n).add (h.meas (.inr n))
  have hpos : ∀ ω, 0 ≤ stay ω := fun ω => add_nonneg (wait_nonneg _ _ _) (hS0 n ω)
  have hm : ∀ k : ℕ, Measurable fun ω => ENNReal.ofReal (Real.exp (-(lam * stay ω)) * (lam * stay ω) ^ k / k.factorial) := by
    intro k
    fun_prop
  have e1 : ∀ k : ℕ, z ^ k * P.real {ω | ∑ j ∈ Finset.range k, A (n + 1 + j) ω ≤ stay ω ∧
      stay ω < ∑ j ∈ Finset.range (k + 1), A (n + 1 + j) ω} = (∫⁻ ω, ENNReal.ofReal (z ^ k) *
        ENNReal.ofReal (Real.exp (-(lam * stay ω)) * (lam * stay ω) ^ k / k.factorial) ∂P).toReal := by
    intro k
    rw [lintegral_const_mul _ (hm k), ← h.left_law hS0 h0 hA n k, ENNReal.toReal_mul, ENNReal.toReal_ofReal (by positivity)]
    rfl
  refine (tsum_congr e1).trans ?_
  change _ = ∫ ω, Real.exp (-(lam * (1 - z) * stay ω)) ∂P
  rw [← ENNReal.tsum_toReal_eq]
  · rw [← lintegral_tsum fun k => ((hm k).const_mul _).aemeasurable,
      integral_eq_lintegral_of_nonneg_ae (Eventually.of_forall fun ω => (Real.exp_pos _).le)
        (by fun_prop : Measurable fun ω => Real.exp (-(lam * (1 - z) * stay ω))).aestronglyMeasurable]
    congr 1
    refine lintegral_congr fun ω => ?_
    have h1 : HasSum (fun k : ℕ => Real.exp (-(lam * stay ω)) * ((z * (lam * stay ω)) ^ k / k.factorial))
        (Real.exp (-(lam * (1 - z) * stay ω))) := by
      have := (NormedSpace.expSeries_div_hasSum_exp (𝔸 := ℝ) (z * (lam * stay ω))).mul_left (Real.exp (-(lam * stay ω)))
      rw [← Real.exp_eq_exp_ℝ, ← Real.exp_add] at this
      rwa [show -(lam * stay ω) + z * (lam * stay ω) = -(lam * (1 - z) * stay ω) by ring] at this
    have hx := hpos ω
    rw [← h1.tsum_eq, ENNReal.ofReal_tsum_of_nonneg (fun k => by positivity) h1.summable]
    refine tsum_congr fun k => ?_
    rw [← ENNReal.ofReal_mul (by positivity)]
    congr 1
    rw [mul_pow z (lam * stay ω) k]
    generalize stay ω = x
    ring
  · intro k
    rw [lintegral_const_mul _ (hm k), ← h.left_law hS0 h0 hA n k]
    exact ENNReal.mul_ne_top ENNReal.ofReal_ne_top (measure_ne_top _ _)

/-- The limit of the generating function of the number left behind. -/
theorem RenewalInput.left_limit (h : RenewalInput P A S) (hS0 : ∀ i ω, 0 ≤ S i ω) {lam : ℝ} (h0 : 0 < lam)
    (hA : P.map (A 0) = expMeasure lam) (hlt : lam * ∫ ω, S 0 ω ∂P < 1) {z : ℝ} (hz : 0 ≤ z) (hz1 : z < 1) :
    Tendsto (fun n => ∑' k, z ^ k * P.real {ω | ∑ j ∈ Finset.range k, A (n + 1 + j) ω ≤ wait (A · ω) (S · ω) n + S n ω ∧
        wait (A · ω) (S · ω) n + S n ω < ∑ j ∈ Finset.range (k + 1), A (n + 1 + j) ω}) atTop
      (𝓝 ((1 - lam * ∫ ω, S 0 ω ∂P) * (1 - z) * (∫ ω, Real.exp (-(lam * (1 - z) * S 0 ω)) ∂P) /
        (∫ ω, Real.exp (-(lam * (1 - z) * S 0 ω)) ∂P - z))) := by
  have mA : ∫ ω, A 0 ω ∂P = 1 / lam := by
    rw [← exp_mean h0, ← hA, integral_map (φ := A 0) (f := fun x => x) (h.meas (.inl 0)).aemeasurable aestronglyMeasurable_id]
  have hm : ∫ ω, S 0 ω ∂P < ∫ ω, A 0 ω ∂P := by
    rw [mA, lt_div_iff₀ h0]
    linarith
  have ht : 0 < lam * (1 - z) := mul_pos h0 (by linarith)
  simp_rw [h.left_generating hS0 h0 hA _ hz, h.stay_transform hS0]
  obtain ⟨eq, -⟩ := h.transform hS0 h0 hA hm
  have h1 := eq (lam * (1 - z)) ht.le
  have h2 := (h.phi_limit hm ht.le).mul_const (∫ ω, Real.exp (-(lam * (1 - z) * S 0 ω)) ∂P)
  set B := ∫ ω, Real.exp (-(lam * (1 - z) * S 0 ω)) ∂P with hB
  set L := ∫ ω, Real.exp (-(lam * (1 - z) * top A S ω)) ∂P with hL
  have hne : B - z ≠ 0 := by
    intro h3
    have : B = z := by linarith
    rw [this] at h1
    have h4 : 0 < lam * (1 - z) * (1 - lam * ∫ ω, S 0 ω ∂P) := mul_pos ht (by linarith)
    nlinarith
  have : (1 - lam * ∫ ω, S 0 ω ∂P) * (1 - z) * B / (B - z) = L * B := by
    rw [div_eq_iff hne]
    have h5 : lam * ((1 - lam * ∫ ω, S 0 ω ∂P) * (1 - z)) = lam * (L * (B - z)) := by linarith
    have h6 := mul_left_cancel₀ h0.ne' h5
    rw [h6]
    ring
  rw [this]
  exact h2

/-- C148: let times between arrivals be exponential of rate `lam`, and services independent of any one law, with mean `σ` and
`lam * σ < 1`. The number of agents that the `n`-th agent leaves behind is, given the time `V n` it stays, Poisson with mean
`lam * V n`; and its generating function tends to `(1 - lam * σ) * (1 - z) * β / (β - z)`, `β` the mean of
`exp (-lam * (1 - z) * service)`, for `0 ≤ z < 1` (formula of Pollaczek and Khinchine). -/
theorem C148_left_behind (h : RenewalInput P A S) {lam : ℝ} (h0 : 0 < lam) (hA : P.map (A 0) = expMeasure lam)
    (hlt : lam * ∫ ω, S 0 ω ∂P < 1) {c : Ω → QCfg (WithTop ℝ)} (hc : ∀ ω, OneServer (c ω) (A · ω) (S · ω)) :
    ∃ (E : ℕ → ℕ → Set Ω) (V : ℕ → Ω → ℝ), (∀ n k, MeasurableSet (E n k)) ∧ (∀ n, Measurable (V n)) ∧
      (∀ ω b s s1 l n, Traj (c ω) b AloneOk s (s1 :: l) → s1.numDepartures = n → s.numDepartures = n + 1 →
        ∀ k : ℕ, s.numSystem = k ↔ ω ∈ E n k) ∧
      (∀ ω b s l, Traj (c ω) b AloneOk s l → ∀ n p q, (atStage 0 (stamps s l))[n]? = some p →
        (atStage 2 (stamps s l))[n]? = some q → q.1 = p.1 ∧ q.2 = p.2 + (V n ω : WithTop ℝ)) ∧
      (∀ n k, P (E n k) = ∫⁻ ω, ENNReal.ofReal (Real.exp (-(lam * V n ω)) * (lam * V n ω) ^ k / k.factorial) ∂P) ∧
      ∀ z, 0 ≤ z → z < 1 → Tendsto (fun n => ∑' k, z ^ k * P.real (E n k)) atTop
        (𝓝 ((1 - lam * ∫ ω, S 0 ω ∂P) * (1 - z) * (∫ ω, Real.exp (-(lam * (1 - z) * S 0 ω)) ∂P) /
          (∫ ω, Real.exp (-(lam * (1 - z) * S 0 ω)) ∂P - z))) := by
  have hS0 : ∀ i ω, 0 ≤ S i ω := fun i ω => (hc ω).svc_nonneg i
  have mstay : ∀ n, Measurable fun ω => wait (A · ω) (S · ω) n + S n ω := fun n => (h.wait_meas n).add (h.meas (.inr n))
  have mY : ∀ n k, Measurable fun ω => ∑ j ∈ Finset.range k, A (n + 1 + j) ω := fun n k =>
    Finset.measurable_sum _ fun j _ => h.meas (.inl (n + 1 + j))
  refine ⟨fun n k => {ω | ∑ j ∈ Finset.range k, A (n + 1 + j) ω ≤ wait (A · ω) (S · ω) n + S n ω ∧
      wait (A · ω) (S · ω) n + S n ω < ∑ j ∈ Finset.range (k + 1), A (n + 1 + j) ω},
    fun n ω => wait (A · ω) (S · ω) n + S n ω,
    fun n k => (measurableSet_le (mY n k) (mstay n)).inter (measurableSet_lt (mstay n) (mY n (k + 1))), mstay,
    fun ω b s s1 l n ht h1 h2 k => ?_, fun ω b s l ht n p q hp hq => ?_, fun n k => h.left_law hS0 h0 hA n k,
    fun z hz hz1 => h.left_limit hS0 h0 hA hlt hz hz1⟩
  · have i1 := C147_left (hc ω) ht h1 h2 k
    have i2 := C147_left (hc ω) ht h1 h2 (k + 1)
    simp only [Set.mem_ofPred_eq]
    rw [← i1, ← not_le, ← i2]
    push_cast
    omega
  · obtain ⟨e1, -⟩ := (hc ω).times ht n
    rw [e1 p hp, C134_departures (hc ω) ht n q hq, add_assoc]
    exact ⟨rfl, by norm_cast⟩

end

/-- Exponential times of mean 2 between arrivals and services of 0 or 3: in the long run one agent out of four leaves nobody
behind. -/
example : ∃ E : ℕ → Set (ℕ ⊕ ℕ → ℝ),
    (∀ ω b s s1 l n, Traj (givenQueue (fun i => |ω (.inl i)|) fun i => |ω (.inr i)|) b AloneOk s (s1 :: l) →
      s1.numDepartures = n → s.numDepartures = n + 1 → (s.numSystem = 0 ↔ ω ∈ E n)) ∧
    Tendsto (fun n => (Measure.infinitePi (laws (expMeasure (1 / 2)) coin)).real (E n)) atTop (𝓝 (1 / 4)) := by
  have hp : (0 : ℝ) < 1 / 2 := by norm_num
  have := isProbabilityMeasure_expMeasure hp
  obtain ⟨h1, -, h3, h4⟩ := C133_met (expMeasure (1 / 2)) coin (exp_int hp) coin_int
  rw [coin_mean] at h3
  have law : (Measure.infinitePi (laws (expMeasure (1 / 2)) coin)).map (fun ω => |ω (.inl 0)|) = expMeasure (1 / 2) := by
    have abs1 : Measurable fun x : ℝ => |x| := by fun_prop
    have e2 : (fun ω : ℕ ⊕ ℕ → ℝ => |ω (.inl 0)|) = (fun y : ℝ => |y|) ∘ fun ω => ω (.inl 0) := rfl
    have e3 : (Measure.infinitePi (laws (expMeasure (1 / 2)) coin)).map (fun ω => ω (.inl 0)) = expMeasure (1 / 2) :=
      Measure.infinitePi_map_eval (laws (expMeasure (1 / 2)) coin) (.inl 0)
    rw [e2, ← Measure.map_map abs1 (measurable_pi_apply _), e3, Measure.map_congr (g := id)]
    · exact Measure.map_id
    · filter_upwards [exp_nonneg hp] with y hy
      exact abs_of_nonneg hy
  obtain ⟨E, V, -, -, g1, -, -, g2⟩ := C148_left_behind h1 hp law (by rw [h3]; norm_num) h4
  refine ⟨fun n => E n 0, fun ω b s s1 l n ht k1 k2 => by simpa using g1 ω b s s1 l n ht k1 k2 0, ?_⟩
  have g3 := g2 0 le_rfl one_pos
  have pos : 0 < ∫ ω, Real.exp (-(1 / 2 * (1 - 0) * |ω (.inr 0)|)) ∂Measure.infinitePi (laws (expMeasure (1 / 2)) coin) := by
    exact integral_exp_pos (exp_bounded (h1.meas (.inr 0)) (fun ω => abs_nonneg _) (by norm_num))
  rw [h3] at g3
  generalize (∫ ω, Real.exp (-(1 / 2 * (1 - 0) * |ω (.inr 0)|)) ∂Measure.infinitePi (laws (expMeasure (1 / 2)) coin)) = B at g3 pos
  rw [sub_zero B, mul_div_assoc, div_self pos.ne'] at g3
  norm_num at g3 ⊢
  refine g3.congr fun n => ?_
  rw [tsum_eq_single 0]
  · simp
  · intro k hk
    simp [hk]

end Verif.QueueSpec
