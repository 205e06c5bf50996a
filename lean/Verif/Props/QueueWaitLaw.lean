import Verif.Props.QueueThroughput

/-! # C138: the law of the waiting time at a queue with one server -/

set_option linter.unusedSectionVars false

namespace Verif.QueueSpec

open Filter Topology MeasureTheory ProbabilityTheory

theorem excess_last (A S : ℕ → ℝ) {n k : ℕ} (hk : k ≤ n) :
    ∑ j ∈ Finset.range k, (S (n - 1 - j) - A (n - 1 - j + 1)) = excess A S n - excess A S (n - k) := by
  induction k with
  | zero => simp
  | succ k ih =>
    rw [Finset.sum_range_succ, ih (by omega)]
    have e : n - k = n - (k + 1) + 1 := by omega
    rw [e, excess_succ, show n - 1 - k = n - (k + 1) by omega]
    ring

theorem wait_le_iff {A S : ℕ → ℝ} {n : ℕ} {x : ℝ} :
    wait A S n ≤ x ↔ ∀ k ≤ n, ∑ j ∈ Finset.range k, (S (n - 1 - j) - A (n - 1 - j + 1)) ≤ x := by
  obtain ⟨⟨k, hk, h1⟩, h2⟩ := wait_excess A S n
  constructor
  · intro h j hj
    rw [excess_last A S hj]
    exact (h2 (n - j) (by omega)).trans h
  · intro h
    have := h (n - k) (by omega)
    rwa [excess_last A S (by omega), show n - (n - k) = k by omega, ← h1] at this

/-- The sums over the first `k` of `n` are at most `x`. -/
def Below (n : ℕ) (x : ℝ) : Set (Fin n ⊕ Fin n → ℝ) :=
  {y | ∀ k ≤ n, ∑ j : Fin n, (if (j : ℕ) < k then y (.inl j) - y (.inr j) else 0) ≤ x}

theorem below_iff {n : ℕ} {x : ℝ} {F G : ℕ → ℝ} :
    (Sum.elim (fun j : Fin n => F j) fun j : Fin n => G j) ∈ Below n x ↔
      ∀ k ≤ n, ∑ j ∈ Finset.range k, (F j - G j) ≤ x := by
  refine forall₂_congr fun k hk => ?_
  simp only [Sum.elim_inl, Sum.elim_inr]
  rw [Fin.sum_univ_eq_sum_range (fun j => if j < k then F j - G j else 0) n, ← Finset.sum_filter]
  have : (Finset.range n).filter (· < k) = Finset.range k := by
    ext j; simp; omega
  rw [this]

theorem below_meas (n : ℕ) (x : ℝ) : MeasurableSet (Below n x) := by
  have : Below n x = ⋂ k ∈ Set.Iic n, {y | ∑ j : Fin n, (if (j : ℕ) < k then y (.inl j) - y (.inr j) else 0) ≤ x} := by
    ext y; simp [Below]
  rw [this]
  refine MeasurableSet.biInter (Set.to_countable _) fun k _ => measurableSet_le ?_ measurable_const
  refine Finset.measurable_sum _ fun j _ => ?_
  split
  · fun_prop
  · fun_prop

section
variable {Ω : Type*} [MeasurableSpace Ω] {P : Measure Ω} [IsProbabilityMeasure P] {A S : ℕ → Ω → ℝ}

/-- Any `n` different services and `n` different times between arrivals have the same joint law. -/
theorem RenewalInput.same_law (h : RenewalInput P A S) {n : ℕ} {f g : Fin n → ℕ} (hf : f.Injective) (hg : g.Injective) :
    P.map (fun ω => Sum.elim (fun j => S (f j) ω) fun j => A (g j) ω) =
      Measure.pi (Sum.elim (fun _ : Fin n => P.map (S 0)) fun _ : Fin n => P.map (A 0)) := by
  let e : Fin n ⊕ Fin n → ℕ ⊕ ℕ := Sum.elim (fun j => .inr (f j)) fun j => .inl (g j)
  have he : e.Injective := by
    rintro (i | i) (j | j) hij <;> simp [e] at hij
    · rw [hf hij]
    · rw [hg hij]
  have hi := h.indep.precomp he
  have := (iIndepFun_iff_map_fun_eq_pi_map fun i => (h.meas (e i)).aemeasurable).mp hi
  have e1 : (fun ω => Sum.elim (fun j => S (f j) ω) fun j => A (g j) ω) = fun ω i => Sum.elim A S (e i) ω := by
    funext ω i
    cases i <;> rfl
  rw [e1, this]
  congr 1
  funext i
  cases i with
  | inl i => exact (h.svc (f i)).map_eq
  | inr i => exact (h.arr (g i)).map_eq

/-- The law of the waiting time of the `n`-th agent is that of the largest of the first `n` excesses. -/
theorem RenewalInput.wait_law (h : RenewalInput P A S) (n : ℕ) (x : ℝ) :
    P {ω | wait (A · ω) (S · ω) n ≤ x} = P {ω | ∀ k ≤ n, excess (A · ω) (S · ω) k ≤ x} := by
  have hA : ∀ i, Measurable (A i) := fun i => h.meas (.inl i)
  have hS : ∀ i, Measurable (S i) := fun i => h.meas (.inr i)
  have hm : ∀ f g : Fin n → ℕ, Measurable fun ω => (Sum.elim (fun j => S (f j) ω) fun j => A (g j) ω : Fin n ⊕ Fin n → ℝ) := by
    intro f g
    refine measurable_pi_iff.mpr fun i => ?_
    cases i with
    | inl i => exact hS _
    | inr i => exact hA _
  have inj : (fun j : Fin n => n - 1 - (j : ℕ)).Injective := fun i j hij => by
    have := i.2; have := j.2; simp only at hij; ext; omega
  have inj' : (fun j : Fin n => n - 1 - (j : ℕ) + 1).Injective := fun i j hij => by
    have := i.2; have := j.2; simp only at hij; ext; omega
  have h1 := h.same_law inj inj'
  have h2 := h.same_law (n := n) (f := fun j => j) (g := fun j => j + 1) (fun i j hij => Fin.ext hij)
    fun i j hij => Fin.ext (by simpa using hij)
  rw [← h2] at h1
  have h3 := congrArg (fun μ => μ (Below n x)) h1
  rw [Measure.map_apply (hm _ _) (below_meas n x), Measure.map_apply (hm _ _) (below_meas n x)] at h3
  convert h3 using 2
  · ext ω
    simp only [Set.mem_ofPred_eq, Set.mem_preimage]
    rw [wait_le_iff]
    exact (below_iff (F := fun j => S (n - 1 - j) ω) (G := fun j => A (n - 1 - j + 1) ω)).symm
  · ext ω
    simp only [Set.mem_ofPred_eq, Set.mem_preimage]
    exact (below_iff (F := fun j => S j ω) (G := fun j => A (j + 1) ω)).symm

theorem RenewalInput.excess_meas (h : RenewalInput P A S) (k : ℕ) : Measurable fun ω => excess (A · ω) (S · ω) k :=
  Finset.measurable_sum _ fun j _ => (h.meas (.inr j)).sub (h.meas (.inl (j + 1)))

theorem RenewalInput.wait_meas (h : RenewalInput P A S) (n : ℕ) : Measurable fun ω => wait (A · ω) (S · ω) n := by
  induction n with
  | zero => exact measurable_const
  | succ n ih => exact measurable_const.max ((ih.add (h.meas (.inr n))).sub (h.meas (.inl (n + 1))))

/-- The largest excess. -/
noncomputable def top (A S : ℕ → Ω → ℝ) (ω : Ω) : ℝ := ⨆ k, excess (A · ω) (S · ω) k

theorem RenewalInput.wait_limit_law (h : RenewalInput P A S) (x : ℝ) :
    Antitone (fun n => P {ω | wait (A · ω) (S · ω) n ≤ x}) ∧
    Tendsto (fun n => P {ω | wait (A · ω) (S · ω) n ≤ x}) atTop (𝓝 (P {ω | ∀ k, excess (A · ω) (S · ω) k ≤ x})) := by
  have hanti : Antitone fun n => {ω | ∀ k ≤ n, excess (A · ω) (S · ω) k ≤ x} :=
    fun m n hmn ω hω k hk => hω k (hk.trans hmn)
  have hmeas : ∀ n, MeasurableSet {ω | ∀ k ≤ n, excess (A · ω) (S · ω) k ≤ x} := by
    intro n
    have : {ω | ∀ k ≤ n, excess (A · ω) (S · ω) k ≤ x} = ⋂ k ∈ Set.Iic n, {ω | excess (A · ω) (S · ω) k ≤ x} := by
      ext ω; simp
    rw [this]
    exact MeasurableSet.biInter (Set.to_countable _) fun k _ => measurableSet_le (h.excess_meas k) measurable_const
  have e : (fun n => P {ω | wait (A · ω) (S · ω) n ≤ x}) = fun n => P {ω | ∀ k ≤ n, excess (A · ω) (S · ω) k ≤ x} :=
    funext fun n => h.wait_law n x
  rw [e]
  refine ⟨fun m n hmn => measure_mono (hanti hmn), ?_⟩
  have hi : {ω | ∀ k, excess (A · ω) (S · ω) k ≤ x} = ⋂ n, {ω | ∀ k ≤ n, excess (A · ω) (S · ω) k ≤ x} := by
    ext ω
    simp only [Set.mem_ofPred_eq, Set.mem_iInter]
    exact ⟨fun h n k _ => h k, fun h k => h k k le_rfl⟩
  rw [hi]
  exact tendsto_measure_iInter_atTop (fun n => (hmeas n).nullMeasurableSet) hanti ⟨0, measure_ne_top _ _⟩

/-- C138: if the times between arrivals and the services are independent, each of one law, and services are shorter in the
mean, the waiting times settle: there is a law `ν` such that the chance that the `n`-th agent waits for `x` or less falls
with `n` to `ν (Iic x)`, for all `x`. It is the law of the largest excess of services over times between arrivals. -/
theorem C138_settles (h : RenewalInput P A S) (hlt : ∫ ω, S 0 ω ∂P < ∫ ω, A 0 ω ∂P) {c : Ω → QCfg (WithTop ℝ)}
    (hc : ∀ ω, OneServer (c ω) (A · ω) (S · ω)) :
    ∃ W : ℕ → Ω → ℝ, (∀ n, Measurable (W n)) ∧
      (∀ ω b s l, Traj (c ω) b AloneOk s l → ∀ n p q, (atStage 0 (stamps s l))[n]? = some p →
        (atStage 1 (stamps s l))[n]? = some q → q.1 = p.1 ∧ q.2 = p.2 + (W n ω : WithTop ℝ)) ∧
      ∃ ν : Measure ℝ, IsProbabilityMeasure ν ∧ (∀ x, ν (Set.Iic x) = P {ω | ∀ k, ∑ i ∈ Finset.range k, (S i ω - A (i + 1) ω) ≤ x}) ∧
        ∀ x, Antitone (fun n => P {ω | W n ω ≤ x}) ∧ Tendsto (fun n => P {ω | W n ω ≤ x}) atTop (𝓝 (ν (Set.Iic x))) := by
  refine ⟨fun n ω => wait (A · ω) (S · ω) n, h.wait_meas, fun ω b s l ht n p q hp hq => ?_, P.map (top A S), ?_, ?_⟩
  · obtain ⟨e1, e2⟩ := (hc ω).times ht n
    rw [e1 p hp, e2 q hq]
    exact ⟨rfl, by norm_cast⟩
  · exact Measure.isProbabilityMeasure_map (Measurable.iSup fun k => h.excess_meas k).aemeasurable
  · have hbdd : ∀ᵐ ω ∂P, BddAbove (Set.range fun k => excess (A · ω) (S · ω) k) := by
      filter_upwards [h.excess_limit] with ω hω
      have h1 : Tendsto (fun n : ℕ => excess (A · ω) (S · ω) n / n * n) atTop atBot :=
        hω.neg_mul_atTop (by linarith) tendsto_natCast_atTop_atTop
      have h2 : Tendsto (fun n : ℕ => excess (A · ω) (S · ω) n) atTop atBot := by
        refine h1.congr' ?_
        filter_upwards [eventually_gt_atTop 0] with n hn
        have : (n : ℝ) ≠ 0 := by exact_mod_cast hn.ne'
        rw [div_mul_cancel₀ _ this]
      exact (isBoundedUnder_of_eventually_le (h2.eventually_le_atBot 0)).bddAbove_range
    have ht : Measurable (top A S) := Measurable.iSup fun k => h.excess_meas k
    have hν : ∀ x, P.map (top A S) (Set.Iic x) = P {ω | ∀ k, excess (A · ω) (S · ω) k ≤ x} := by
      intro x
      rw [Measure.map_apply ht measurableSet_Iic]
      refine measure_congr ?_
      filter_upwards [hbdd] with ω hω
      refine propext ⟨fun hx k => (le_ciSup hω k).trans hx, fun hx => ciSup_le hx⟩
    refine ⟨hν, fun x => ?_⟩
    rw [hν]
    exact h.wait_limit_law x

/-- C138: if services are longer in the mean, the chance that the `n`-th agent waits for `x` or less tends to 0, for all `x`. -/
theorem C138_grows (h : RenewalInput P A S) (hlt : ∫ ω, A 0 ω ∂P < ∫ ω, S 0 ω ∂P) {c : Ω → QCfg (WithTop ℝ)}
    (hc : ∀ ω, OneServer (c ω) (A · ω) (S · ω)) :
    ∃ W : ℕ → Ω → ℝ, (∀ n, Measurable (W n)) ∧
      (∀ ω b s l, Traj (c ω) b AloneOk s l → ∀ n p q, (atStage 0 (stamps s l))[n]? = some p →
        (atStage 1 (stamps s l))[n]? = some q → q.1 = p.1 ∧ q.2 = p.2 + (W n ω : WithTop ℝ)) ∧
      ∀ x, Tendsto (fun n => P {ω | W n ω ≤ x}) atTop (𝓝 0) := by
  refine ⟨fun n ω => wait (A · ω) (S · ω) n, h.wait_meas, fun ω b s l ht n p q hp hq => ?_, fun x => ?_⟩
  · obtain ⟨e1, e2⟩ := (hc ω).times ht n
    rw [e1 p hp, e2 q hq]
    exact ⟨rfl, by norm_cast⟩
  · have := (h.wait_limit_law x).2
    have h0 : P {ω | ∀ k, excess (A · ω) (S · ω) k ≤ x} = 0 := by
      refine measure_mono_null (fun ω hω => ?_) (ae_iff.mp h.excess_limit)
      intro hlim
      have h1 : Tendsto (fun n : ℕ => excess (A · ω) (S · ω) n / n * n) atTop atTop :=
        hlim.pos_mul_atTop (by linarith) tendsto_natCast_atTop_atTop
      obtain ⟨n, hn1, hn2⟩ := ((h1.eventually_gt_atTop x).and (eventually_gt_atTop 0)).exists
      have : (n : ℝ) ≠ 0 := by exact_mod_cast hn2.ne'
      rw [div_mul_cancel₀ _ this] at hn1
      exact absurd (hω n) (not_le.mpr hn1)
    rwa [h0] at this

end

/-- Arrivals every 2 and services of 0 or 3: the waiting times settle. Arrivals every 1: they grow beyond all bounds. -/
example (d : ℝ) (hd : 0 < d) : ∃ W : ℕ → (ℕ ⊕ ℕ → ℝ) → ℝ,
    (∀ ω b s l, Traj (givenQueue (fun i => |ω (.inl i)|) fun i => |ω (.inr i)|) b AloneOk s l →
      ∀ n p q, (atStage 0 (stamps s l))[n]? = some p → (atStage 1 (stamps s l))[n]? = some q →
        q.1 = p.1 ∧ q.2 = p.2 + (W n ω : WithTop ℝ)) ∧
    (d = 2 → ∃ ν : Measure ℝ, IsProbabilityMeasure ν ∧ ∀ x, Tendsto
      (fun n => Measure.infinitePi (laws (Measure.dirac d) coin) {ω | W n ω ≤ x}) atTop (𝓝 (ν (Set.Iic x)))) ∧
    (d = 1 → ∀ x, Tendsto (fun n => Measure.infinitePi (laws (Measure.dirac d) coin) {ω | W n ω ≤ x}) atTop (𝓝 0)) := by
  obtain ⟨h1, h2, h3, h4⟩ := C133_met (Measure.dirac d) coin (integrable_dirac (by simp)) coin_int
  rw [integral_dirac, abs_of_pos hd] at h2
  rw [coin_mean] at h3
  by_cases e : d = 2
  · subst e
    obtain ⟨W, -, g1, ν, g2, -, g3⟩ := C138_settles h1 (by rw [h2, h3]; norm_num) h4
    exact ⟨W, g1, fun _ => ⟨ν, g2, fun x => (g3 x).2⟩, fun h => absurd h (by norm_num)⟩
  · by_cases e' : d = 1
    · subst e'
      obtain ⟨W, -, g1, g2⟩ := C138_grows h1 (by rw [h2, h3]; norm_num) h4
      exact ⟨W, g1, fun h => absurd h e, fun _ => g2⟩
    · obtain ⟨W, g1⟩ : ∃ W : ℕ → (ℕ ⊕ ℕ → ℝ) → ℝ,
          ∀ ω b s l, Traj (givenQueue (fun i => |ω (.inl i)|) fun i => |ω (.inr i)|) b AloneOk s l →
          ∀ n p q, (atStage 0 (stamps s l))[n]? = some p → (atStage 1 (stamps s l))[n]? = some q →
            q.1 = p.1 ∧ q.2 = p.2 + (W n ω : WithTop ℝ) := by
        refine ⟨fun n ω => wait (fun i => |ω (.inl i)|) (fun i => |ω (.inr i)|) n, fun ω b s l ht n p q hp hq => ?_⟩
        obtain ⟨e1, e2⟩ := (h4 ω).times ht n
        rw [e1 p hp, e2 q hq]
        exact ⟨rfl, by norm_cast⟩
      exact ⟨W, g1, fun h => absurd h e, fun h => absurd h e'⟩

end Verif.QueueSpec
