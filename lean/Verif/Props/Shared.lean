import Verif.Props.NetPoisson2
import Mathlib.Probability.Independence.InfinitePi
import Mathlib.Data.Nat.Nth

/-!
# One generator for everybody (C119)

All the random numbers of a simulation come from one generator. Who asks for the next number depends on the numbers that came
before. Still, the numbers that go to different users are independent, and those that one user gets are independent draws.
-/

namespace Verif.ThinSpec

open Verif MeasureTheory Set ProbabilityTheory Thin
open scoped ENNReal Topology

section generator

variable {X I : Type*}

/-- The user that asks for the n-th number, when the generator returns `ω`. `who l` is the user that asks next when the
numbers so far were `l`. -/
def asks (who : List X → I) (ω : ℕ → X) (n : ℕ) : I := who (List.ofFn fun j : Fin n => ω j)

open Classical in
/-- User `i` asked `j` times before, and now asks for the n-th number. -/
def AsksAt (who : List X → I) (ω : ℕ → X) (i : I) (j n : ℕ) : Prop :=
  asks who ω n = i ∧ (List.range n).countP (fun m => decide (asks who ω m = i)) = j

/-- `x` is the number that user `i` gets when asking for the j-th time. -/
def Gets (who : List X → I) (ω : ℕ → X) (i : I) (j : ℕ) (x : X) : Prop := ∃ n, AsksAt who ω i j n ∧ ω n = x

variable [MeasurableSpace X]

/-- The choice of the next user is measurable. -/
def MeasurableWho (who : List X → I) : Prop := ∀ n i, MeasurableSet {v : Fin n → X | who (List.ofFn v) = i}

variable {who : List X → I} {ω : ℕ → X}

omit [MeasurableSpace X] in
theorem asks_congr {ω' : ℕ → X} {N n : ℕ} (h : ∀ m < N, ω m = ω' m) (hn : n ≤ N) : asks who ω n = asks who ω' n := by
  unfold asks
  congr 2
  funext j
  exact h j (by omega)

omit [MeasurableSpace X] in
theorem asksAt_congr {ω' : ℕ → X} {N n : ℕ} (h : ∀ m < N, ω m = ω' m) (hn : n ≤ N) (i : I) (j : ℕ) :
    AsksAt who ω i j n ↔ AsksAt who ω' i j n := by
  unfold AsksAt
  rw [asks_congr h hn, List.countP_congr fun m hm => ?_]
  rw [asks_congr h (by have := List.mem_range.mp hm; omega : m ≤ N)]

omit [MeasurableSpace X] in
theorem count_mono (i : I) [DecidablePred fun m => asks who ω m = i] {m n : ℕ} (h : m ≤ n) :
    (List.range m).countP (fun m => decide (asks who ω m = i)) ≤ (List.range n).countP (fun m => decide (asks who ω m = i)) :=
  (List.range_sublist.mpr h).countP_le

omit [MeasurableSpace X] in
theorem asksAt_unique {i : I} {j m n : ℕ} (h : AsksAt who ω i j m) (h' : AsksAt who ω i j n) : m = n := by
  classical
  suffices key : ∀ {m n}, AsksAt who ω i j m → AsksAt who ω i j n → ¬ m < n by
    have := key h h'; have := key h' h; omega
  intro m n h h' hlt
  have h1 := count_mono (who := who) (ω := ω) i (show m + 1 ≤ n from hlt)
  rw [List.range_succ, List.countP_append, h.2, h'.2] at h1
  simp [h.1] at h1

theorem measurableSet_asks (hw : MeasurableWho who) (n : ℕ) (i : I) : MeasurableSet {ω : ℕ → X | asks who ω n = i} :=
  (hw n i).preimage (f := fun (ω : ℕ → X) (j : Fin n) => ω j) (by fun_prop)

theorem measurableSet_asksAt (hw : MeasurableWho who) (i : I) (j n : ℕ) : MeasurableSet {ω : ℕ → X | AsksAt who ω i j n} := by
  classical
  refine (measurableSet_asks hw n i).inter ?_
  have h : Measurable fun ω : ℕ → X => (List.range n).countP (fun m => decide (asks who ω m = i)) := by
    induction n with
    | zero => exact measurable_const
    | succ n ih =>
      simp only [List.range_succ, List.countP_append, List.countP_singleton]
      refine ih.add (Measurable.ite ?_ measurable_const measurable_const)
      simpa using measurableSet_asks hw n i
  exact h (measurableSet_singleton j)

variable {μ : Measure X} [IsProbabilityMeasure μ]

/-- To draw one of the numbers anew does not change the law. -/
theorem resample (N : ℕ) : ((Measure.infinitePi fun _ : ℕ => μ).prod μ).map (fun p : (ℕ → X) × X => Function.update p.1 N p.2) =
    Measure.infinitePi fun _ : ℕ => μ := by
  classical
  refine Measure.eq_infinitePi _ fun s t ht => ?_
  have hm : Measurable fun p : (ℕ → X) × X => Function.update p.1 N p.2 := by
    refine measurable_pi_lambda _ fun i => ?_
    by_cases h : i = N
    · subst h; simpa using measurable_snd
    · simp only [Function.update_of_ne h]; fun_prop
  rw [Measure.map_apply hm (MeasurableSet.pi (Finset.countable_toSet _) fun i _ => ht i)]
  by_cases hN : N ∈ s
  · have e : (fun p : (ℕ → X) × X => Function.update p.1 N p.2) ⁻¹' (Set.pi s t) = (Set.pi (s.erase N) t) ×ˢ (t N) := by
      ext ⟨ω, x⟩
      simp only [mem_preimage, Set.mem_pi, Finset.mem_coe, mem_prod, Finset.mem_erase]
      constructor
      · intro h
        refine ⟨fun i hi => by simpa [Function.update_of_ne hi.1] using h i hi.2, by simpa using h N hN⟩
      · rintro ⟨h1, h2⟩ i hi
        by_cases hi' : i = N
        · subst hi'; simpa using h2
        · simpa [Function.update_of_ne hi'] using h1 i ⟨hi', hi⟩
    rw [e, Measure.prod_prod, Measure.infinitePi_pi _ (fun i _ => ht i), Finset.prod_erase_mul _ _ hN]
  · have e : (fun p : (ℕ → X) × X => Function.update p.1 N p.2) ⁻¹' (Set.pi s t) = (Set.pi s t) ×ˢ univ := by
      ext ⟨ω, x⟩
      simp only [mem_preimage, Set.mem_pi, Finset.mem_coe, mem_prod, mem_univ, and_true]
      refine forall₂_congr fun i hi => ?_
      rw [Function.update_of_ne (by rintro rfl; exact hN hi)]
    rw [e, Measure.prod_prod, Measure.infinitePi_pi _ (fun i _ => ht i), measure_univ, mul_one]

open Classical in
/-- The chance, seen after `N` numbers, that user `i` gets a number in `B` when asking for the j-th time. -/
noncomputable def seen (who : List X → I) (μ : Measure X) (B : I × ℕ → Set X) (p : I × ℕ) : ℕ → (ℕ → X) → ℝ≥0∞
  | 0, _ => μ (B p)
  | N + 1, ω => if AsksAt who ω p.1 p.2 N then (B p).indicator 1 (ω N) else seen who μ B p N ω

omit [IsProbabilityMeasure μ] in
theorem seen_congr (B : I × ℕ → Set X) (p : I × ℕ) {ω' : ℕ → X} {N : ℕ} (h : ∀ m < N, ω m = ω' m) :
    seen who μ B p N ω = seen who μ B p N ω' := by
  classical
  induction N with
  | zero => rfl
  | succ N ih =>
    rw [seen, seen, ih fun m hm => h m (by omega), h N (by omega)]
    refine if_congr (asksAt_congr h (by omega) _ _) rfl rfl

omit [IsProbabilityMeasure μ] in
theorem seen_before (B : I × ℕ → Set X) (p : I × ℕ) {n N : ℕ} (h : AsksAt who ω p.1 p.2 n) (hN : N ≤ n) :
    seen who μ B p N ω = μ (B p) := by
  induction N with
  | zero => rfl
  | succ N ih =>
    rw [seen, if_neg, ih (by omega)]
    intro h'
    have := asksAt_unique h h'
    omega

omit [IsProbabilityMeasure μ] in
theorem seen_after (B : I × ℕ → Set X) (p : I × ℕ) {n N : ℕ} (h : AsksAt who ω p.1 p.2 n) (hN : n < N) :
    seen who μ B p N ω = (B p).indicator 1 (ω n) := by
  induction N with
  | zero => omega
  | succ N ih =>
    rw [seen]
    split
    · rename_i h'
      rw [asksAt_unique h h']
    · rename_i h'
      have : n ≠ N := by rintro rfl; exact h' h
      exact ih (by omega)

omit [IsProbabilityMeasure μ] in
theorem measurable_seen (hw : MeasurableWho who) {B : I × ℕ → Set X} (hB : ∀ p, MeasurableSet (B p)) (p : I × ℕ) (N : ℕ) :
    Measurable (seen who μ B p N) := by
  induction N with
  | zero => exact measurable_const
  | succ N ih =>
    exact Measurable.ite (measurableSet_asksAt hw p.1 p.2 N)
      ((measurable_one.indicator (hB p)).comp (measurable_pi_apply N)) ih

theorem seen_le (B : I × ℕ → Set X) (p : I × ℕ) (N : ℕ) : seen who μ B p N ω ≤ 1 := by
  induction N with
  | zero => exact prob_le_one
  | succ N ih =>
    rw [seen]
    split
    · exact indicator_le_self' (fun _ _ => zero_le) _
    · exact ih

theorem seen_mean (hw : MeasurableWho who) {B : I × ℕ → Set X} (hB : ∀ p, MeasurableSet (B p)) (F : Finset (I × ℕ)) (N : ℕ) :
    ∫⁻ ω, ∏ p ∈ F, seen who μ B p N ω ∂(Measure.infinitePi fun _ : ℕ => μ) = ∏ p ∈ F, μ (B p) := by
  classical
  induction N with
  | zero => simp [seen]
  | succ N ih =>
    have hm : Measurable fun p : (ℕ → X) × X => Function.update p.1 N p.2 := by
      refine measurable_pi_lambda _ fun i => ?_
      by_cases h : i = N
      · subst h; simpa using measurable_snd
      · simp only [Function.update_of_ne h]; fun_prop
    have hf : Measurable fun ω => ∏ p ∈ F, seen who μ B p (N + 1) ω :=
      Finset.measurable_prod _ fun p _ => measurable_seen hw hB p (N + 1)
    have e1 : ∫⁻ ω, ∏ p ∈ F, seen who μ B p (N + 1) ω ∂(Measure.infinitePi fun _ : ℕ => μ) =
        ∫⁻ ω, ∫⁻ x, ∏ p ∈ F, seen who μ B p (N + 1) (Function.update ω N x) ∂μ ∂(Measure.infinitePi fun _ : ℕ => μ) := by
      conv_lhs => rw [← resample (μ := μ) N]
      rw [lintegral_map hf hm]
      exact lintegral_prod _ (hf.comp hm).aemeasurable
    rw [← ih, e1]
    refine lintegral_congr fun ω => ?_
    have hag : ∀ x, ∀ m < N, Function.update ω N x m = ω m := fun x m h => Function.update_of_ne (by omega) _ _
    have hstep : ∀ x p, seen who μ B p (N + 1) (Function.update ω N x) =
        if AsksAt who ω p.1 p.2 N then (B p).indicator 1 x else seen who μ B p N ω := by
      intro x p
      rw [seen, seen_congr B p (hag x), Function.update_self]
      exact if_congr (asksAt_congr (hag x) le_rfl _ _) rfl rfl
    simp only [hstep]
    by_cases hex : ∃ p ∈ F, AsksAt who ω p.1 p.2 N
    · obtain ⟨p, hp, ha⟩ := hex
      have huniq : ∀ p' ∈ F.erase p, ¬ AsksAt who ω p'.1 p'.2 N := by
        rintro ⟨i, j⟩ hp' ⟨h1, h2⟩
        refine (Finset.mem_erase.mp hp').1 ?_
        obtain ⟨a1, a2⟩ := ha
        obtain ⟨i', j'⟩ := p
        simp only at h1 h2 a1 a2
        rw [← a1, h1, Prod.mk.injEq, ← a2, ← h2]
        refine ⟨rfl, ?_⟩
        subst h1
        subst a1
        rfl
      have e : ∀ x, (∏ p ∈ F, if AsksAt who ω p.1 p.2 N then (B p).indicator 1 x else seen who μ B p N ω) =
          (B p).indicator 1 x * ∏ p ∈ F.erase p, seen who μ B p N ω := by
        intro x
        rw [← Finset.mul_prod_erase _ _ hp, if_pos ha]
        congr 1
        exact Finset.prod_congr rfl fun p' hp' => if_neg (huniq p' hp')
      simp only [e]
      rw [lintegral_mul_const _ (measurable_one.indicator (hB p)), lintegral_indicator_one (hB p),
        ← Finset.mul_prod_erase _ _ hp, seen_before B p ha le_rfl]
    · have e : ∀ x, (∏ p ∈ F, if AsksAt who ω p.1 p.2 N then (B p).indicator 1 x else seen who μ B p N ω) =
          ∏ p ∈ F, seen who μ B p N ω := by
        intro x
        exact Finset.prod_congr rfl fun p hp => if_neg fun h => hex ⟨p, hp, h⟩
      simp only [e, lintegral_const, measure_univ, mul_one]

omit [IsProbabilityMeasure μ] in
theorem aemeasurable_gets (hw : MeasurableWho who) {P : Measure (ℕ → X)} {i : I} {j : ℕ} {D : (ℕ → X) → X}
    (hD : ∀ᵐ ω ∂P, Gets who ω i j (D ω)) : AEMeasurable D P := by
  classical
  have hm := fun n => measurableSet_asksAt (X := X) hw i j n
  refine ⟨fun ω => ω (Nat.find (p := fun n => AsksAt who ω i j n ∨ ¬∃ m, AsksAt who ω i j m) ?_), ?_, ?_⟩
  · by_cases h : ∃ n, AsksAt who ω i j n
    · exact ⟨h.choose, .inl h.choose_spec⟩
    · exact ⟨0, .inr h⟩
  · have hnone : MeasurableSet {ω : ℕ → X | ¬∃ m, AsksAt who ω i j m} := by
      have : {ω : ℕ → X | ¬∃ m, AsksAt who ω i j m} = (⋃ m, {ω | AsksAt who ω i j m})ᶜ := by
        ext ω; simp
      rw [this]
      exact (MeasurableSet.iUnion hm).compl
    exact Measurable.find (f := fun n (ω : ℕ → X) => ω n) (p := fun n ω => AsksAt who ω i j n ∨ ¬∃ m, AsksAt who ω i j m)
      (fun n => measurable_pi_apply n) (fun n => (hm n).union hnone) _
  · filter_upwards [hD] with ω hω
    obtain ⟨n, h1, h2⟩ := hω
    rw [← h2]
    congr 1
    generalize_proofs g
    rcases Nat.find_spec g with h | h
    · exact asksAt_unique h1 h
    · exact absurd ⟨n, h1⟩ h

/-- C119: let all the numbers come from one generator, independent with law `μ`, and let who asks next depend on the numbers
so far. Take any (user, j) for which almost surely the user asks so often, and let `D i j` be the number that user `i` gets
when asking for the j-th time. Then these numbers are independent, with law `μ`. -/
theorem C119_draws (hw : MeasurableWho who) (F : Finset (I × ℕ)) (D : I → ℕ → (ℕ → X) → X)
    (hD : ∀ p ∈ F, ∀ᵐ ω ∂Measure.infinitePi fun _ : ℕ => μ, Gets who ω p.1 p.2 (D p.1 p.2 ω)) (B : I × ℕ → Set X)
    (hB : ∀ p, MeasurableSet (B p)) :
    (Measure.infinitePi fun _ : ℕ => μ) {ω | ∀ p ∈ F, D p.1 p.2 ω ∈ B p} = ∏ p ∈ F, μ (B p) := by
  classical
  have hae : ∀ᵐ ω ∂Measure.infinitePi fun _ : ℕ => μ, ∀ p ∈ F, Gets who ω p.1 p.2 (D p.1 p.2 ω) :=
    (Filter.eventually_all_finset F).mpr hD
  have hlim : Filter.Tendsto (fun N => ∫⁻ ω, ∏ p ∈ F, seen who μ B p N ω ∂(Measure.infinitePi fun _ : ℕ => μ)) Filter.atTop
      (𝓝 (∫⁻ ω, {ω | ∀ p ∈ F, D p.1 p.2 ω ∈ B p}.indicator 1 ω ∂(Measure.infinitePi fun _ : ℕ => μ))) := by
    refine tendsto_lintegral_of_dominated_convergence (fun _ => 1)
      (fun N => Finset.measurable_prod _ fun p _ => measurable_seen hw hB p N)
      (fun N => Filter.Eventually.of_forall fun ω => Finset.prod_le_one' fun p _ => seen_le B p N) (by simp) ?_
    filter_upwards [hae] with ω hω
    choose! n hn hn' using hω
    refine tendsto_const_nhds.congr' ?_
    filter_upwards [Filter.eventually_gt_atTop (F.sup n)] with N hN
    have e : ∀ p ∈ F, seen who μ B p N ω = (B p).indicator 1 (D p.1 p.2 ω) := fun p hp => by
      rw [seen_after B p (hn p hp) ((Finset.le_sup hp).trans_lt hN), hn' p hp]
    rw [Finset.prod_congr rfl e]
    by_cases hall : ∀ p ∈ F, D p.1 p.2 ω ∈ B p
    · rw [indicator_of_mem (show ω ∈ {ω | ∀ p ∈ F, D p.1 p.2 ω ∈ B p} from hall)]
      exact (Finset.prod_eq_one fun p hp => indicator_of_mem (hall p hp) _).symm
    · rw [indicator_of_notMem (show ω ∉ {ω | ∀ p ∈ F, D p.1 p.2 ω ∈ B p} from hall)]
      push Not at hall
      obtain ⟨p, hp, hnot⟩ := hall
      exact (Finset.prod_eq_zero hp (indicator_of_notMem hnot _)).symm
  simp only [seen_mean hw hB F] at hlim
  have hnull : NullMeasurableSet {ω | ∀ p ∈ F, D p.1 p.2 ω ∈ B p} (Measure.infinitePi fun _ : ℕ => μ) := by
    have : {ω | ∀ p ∈ F, D p.1 p.2 ω ∈ B p} = ⋂ p ∈ F, D p.1 p.2 ⁻¹' B p := by ext ω; simp
    rw [this]
    exact NullMeasurableSet.biInter (Finset.countable_toSet _) fun p hp =>
      (aemeasurable_gets hw (hD p hp)).nullMeasurable (hB p)
  rw [← lintegral_indicator_one₀ hnull]
  exact tendsto_nhds_unique hlim tendsto_const_nhds

/-- C119: in particular, let each of the users `e k` almost surely ask again and again. What user `e k` gets is a sequence of
independent draws with law `μ`, and the sequences of different users are independent. -/
theorem C119_users {K : Type*} [Countable K] (hw : MeasurableWho who) (e : K → I) (he : Function.Injective e)
    (D : K → (ℕ → X) → ℕ → X) (hD : ∀ k j, ∀ᵐ ω ∂Measure.infinitePi fun _ : ℕ => μ, Gets who ω (e k) j (D k ω j)) :
    (∀ k, AEMeasurable (D k) (Measure.infinitePi fun _ : ℕ => μ)) ∧
    (∀ k, (Measure.infinitePi fun _ : ℕ => μ).map (D k) = Measure.infinitePi fun _ : ℕ => μ) ∧
    iIndepFun D (Measure.infinitePi fun _ : ℕ => μ) := by
  classical
  set P := Measure.infinitePi fun _ : ℕ => μ with hP
  have hm1 : ∀ k j, AEMeasurable (fun ω => D k ω j) P := fun k j => aemeasurable_gets hw (hD k j)
  have hm : ∀ k, AEMeasurable (D k) P := fun k => aemeasurable_pi_iff.mpr (hm1 k)
  have hmp : AEMeasurable (fun ω (p : K × ℕ) => D p.1 ω p.2) P := aemeasurable_pi_iff.mpr fun p => hm1 p.1 p.2
  have h1 : P.map (fun ω (p : K × ℕ) => D p.1 ω p.2) = Measure.infinitePi fun _ : K × ℕ => μ := by
    refine Measure.eq_infinitePi _ fun s t ht => ?_
    rw [Measure.map_apply_of_aemeasurable hmp (MeasurableSet.pi (Finset.countable_toSet _) fun i _ => ht i)]
    rcases isEmpty_or_nonempty K with hK | hK
    · rw [Finset.eq_empty_of_isEmpty s]; simp
    have hinv : ∀ k, Function.invFun e (e k) = k := Function.leftInverse_invFun he
    have hinj : Function.Injective (Prod.map e (id : ℕ → ℕ)) := he.prodMap Function.injective_id
    have := C119_draws (μ := μ) hw (s.image (Prod.map e id)) (fun i j ω => D (Function.invFun e i) ω j) (by
      intro p hp
      obtain ⟨⟨k, j⟩, -, rfl⟩ := Finset.mem_image.mp hp
      simpa only [Prod.map_fst, Prod.map_snd, hinv, id] using hD k j) (fun p => t (Function.invFun e p.1, p.2)) fun p => ht _
    rw [Finset.prod_image hinj.injOn] at this
    simp only [Finset.forall_mem_image, Prod.map_fst, Prod.map_snd, hinv, id] at this
    rw [← this]
    congr 1
  have h2 : P.map (fun ω k => D k ω) = Measure.infinitePi fun _ : K => P := by
    have h3 := Measure.infinitePi_map_curry (fun (_ : K) (_ : ℕ) => μ)
    rw [← h1, AEMeasurable.map_map_of_aemeasurable (by fun_prop) hmp] at h3
    exact h3
  have h3 : ∀ k, P.map (D k) = P := by
    intro k
    have h4 := Measure.infinitePi_map_eval (fun _ : K => P) k
    rw [← h2, AEMeasurable.map_map_of_aemeasurable (measurable_pi_apply k).aemeasurable (aemeasurable_pi_iff.mpr hm)] at h4
    exact h4
  refine ⟨hm, h3, (iIndepFun_iff_map_fun_eq_infinitePi_map₀' hm).mpr ?_⟩
  rw [h2]
  simp only [h3]

omit [MeasurableSpace X] in
/-- A user that asks infinitely often gets a number for every j. -/
theorem exists_gets {i : I} (h : ∀ m, ∃ n, m ≤ n ∧ asks who ω n = i) (j : ℕ) : ∃ x, Gets who ω i j x := by
  classical
  have hc : ∀ n, (List.range n).countP (fun m => decide (asks who ω m = i)) = Nat.count (fun m => asks who ω m = i) n := by
    intro n
    induction n with
    | zero => rfl
    | succ n ih => simp [List.range_succ, ih, Nat.count_succ, List.countP_singleton]
  have hinf : {n | asks who ω n = i}.Infinite := by
    rw [Set.infinite_iff_exists_gt]
    intro m
    obtain ⟨n, h1, h2⟩ := h (m + 1)
    exact ⟨n, h2, by omega⟩
  refine ⟨_, Nat.nth (fun m => asks who ω m = i) j, ⟨Nat.nth_mem_of_infinite hinf j, ?_⟩, rfl⟩
  rw [hc]
  convert Nat.count_nth_of_infinite hinf j

end generator

/-- C119 and C118: the independent Poisson processes, when all the draws come from one generator. `e i` is the user of the
generator that is the `arrival_f` of queue `q i`; there may be any other users. -/
theorem C119_poisson {I U : Type*} [Fintype I] {R : Type*} [LinearOrder R] [Add R] {who : List (ℝ × ℝ) → U}
    (hw : MeasurableWho who) (e : I → U) (he : Function.Injective e) {D : I → Draws → Draws}
    (hD : ∀ i j, ∀ᵐ ω ∂law, Gets who ω (e i) j (D i ω j)) {q : I → ℕ} {r : I → ℝ} {rate : I → ℝ → ℝ}
    (h : ∀ i, Rate (rate i) (r i))
    (hinf : ∀ i, Filter.Tendsto (fun s => ∫ x in (0 : ℝ)..s, rate i x) Filter.atTop Filter.atTop) {u : ℝ}
    {n : Draws → Net (WithTop ℝ) R} (hn : ∀ᵐ ω ∂law, PoissonNet R q r rate (fun i => D i ω) u (n ω)) :
    (∀ L : I → List (ℝ × ℕ), (∀ i, Incr 0 (L i)) → (∀ i, ∀ p ∈ L i, p.1 ≤ u) →
      law.real {ω | ∀ i, Came ((n ω).qs (q i)).created 0 (L i)} = ∏ i, indepPoisson (rate i) 0 (L i)) ∧
    ∀ L : List (ℝ × ℕ), Incr 0 L → (∀ p ∈ L, p.1 ≤ u) →
      law.real {ω | CameAll (fun i => ((n ω).qs (q i)).created) 0 L} = indepPoisson (fun y => ∑ i, rate i y) 0 L := by
  obtain ⟨h1, h2, h3⟩ := C119_users (μ := drawLaw) hw e he D hD
  exact ⟨C118_independent h1 h2 h3 h hinf hn, C118_total h1 h2 h3 h hinf hn⟩

/-! ## Example -/

section example_

open Classical in
/-- In each block of three numbers, the first goes to user 0. If its uniform part is less than 1/2, the second goes to user 0
and the third to user 1, else the other way round. -/
noncomputable def turns (l : List (ℝ × ℝ)) : Fin 2 :=
  if l.length % 3 = 0 then 0
  else if l.length % 3 = 1 then (if (l.getD (l.length - 1) 0).2 < 1 / 2 then 0 else 1)
  else (if (l.getD (l.length - 2) 0).2 < 1 / 2 then 1 else 0)

theorem turns_measurable : MeasurableWho turns := by
  classical
  intro n i
  have hget : ∀ k, Measurable fun v : Fin n → ℝ × ℝ => ((List.ofFn v).getD k 0).2 := by
    intro k
    by_cases hk : k < n
    · have : (fun v : Fin n → ℝ × ℝ => ((List.ofFn v).getD k 0).2) = fun v => (v ⟨k, hk⟩).2 := by
        funext v; simp [List.getD, hk]
      rw [this]; fun_prop
    · have : (fun v : Fin n → ℝ × ℝ => ((List.ofFn v).getD k 0).2) = fun _ => (0 : ℝ × ℝ).2 := by
        funext v; simp [List.getD, hk]
      rw [this]; fun_prop
  have : Measurable fun v : Fin n → ℝ × ℝ => turns (List.ofFn v) := by
    unfold turns
    simp only [List.length_ofFn]
    split
    · exact measurable_const
    · split
      · exact Measurable.ite (measurableSet_lt (hget _) measurable_const) measurable_const measurable_const
      · exact Measurable.ite (measurableSet_lt (hget _) measurable_const) measurable_const measurable_const
  exact this (measurableSet_singleton i)

theorem turns_often (ω : Draws) (i : Fin 2) (m : ℕ) : ∃ n, m ≤ n ∧ asks turns ω n = i := by
  have e1 : asks turns ω (3 * m + 1) = if (ω (3 * m)).2 < 1 / 2 then 0 else 1 := by
    unfold asks turns
    simp only [List.length_ofFn]
    rw [if_neg (by omega), if_pos (by omega)]
    rw [List.getD_eq_getElem _ _ (by simp), List.getElem_ofFn]
    rfl
  have e2 : asks turns ω (3 * m + 2) = if (ω (3 * m)).2 < 1 / 2 then 1 else 0 := by
    unfold asks turns
    simp only [List.length_ofFn]
    rw [if_neg (by omega), if_neg (by omega)]
    rw [List.getD_eq_getElem _ _ (by simp), List.getElem_ofFn]
    rfl
  by_cases h : (ω (3 * m)).2 < 1 / 2
  · rw [if_pos h] at e1 e2
    fin_cases i
    · exact ⟨_, by omega, e1⟩
    · exact ⟨_, by omega, e2⟩
  · rw [if_neg h] at e1 e2
    fin_cases i
    · exact ⟨_, by omega, e2⟩
    · exact ⟨_, by omega, e1⟩

/-- What each of the two users gets. -/
noncomputable def turn (i : Fin 2) (ω : Draws) (j : ℕ) : ℝ × ℝ := (exists_gets (fun m => turns_often ω i m) j).choose

theorem turn_gets (i : Fin 2) (ω : Draws) (j : ℕ) : Gets turns ω i j (turn i ω j) :=
  (exists_gets (fun m => turns_often ω i m) j).choose_spec

/-- The hypotheses of `C119_users` are met by a generator whose next user depends on the numbers so far. -/
example : iIndepFun turn law ∧ ∀ i, law.map (turn i) = law := by
  obtain ⟨-, h2, h3⟩ := C119_users (μ := drawLaw) turns_measurable id Function.injective_id turn fun k j =>
    Filter.Eventually.of_forall fun ω => turn_gets k ω j
  exact ⟨h3, h2⟩

/-- The hypotheses of `C119_poisson` are met too, with two queues whose draws come from that generator. -/
theorem C119_met (u : ℝ) (hu : 0 ≤ u) : ∃ n : Draws → Net (WithTop ℝ) ℕ,
    ∀ᵐ ω ∂law, PoissonNet ℕ (fun i : Fin 2 => i.1) (fun _ => 3) (fun _ x => 2 + Real.sin (2 * Real.pi * x))
      (fun i => turn i ω) u (n ω) := by
  obtain ⟨hR, hinf, -⟩ := C112_met u hu
  obtain ⟨hm, h2, -⟩ := C119_users (μ := drawLaw) turns_measurable id Function.injective_id turn fun k j =>
    Filter.Eventually.of_forall fun ω => turn_gets k ω j
  have h1 : ∀ᵐ ω ∂law, ∀ i : Fin 2, Pos (turn i ω) ∧
      (∀ j, ∃ m y, Arrives 3 (fun x => 2 + Real.sin (2 * Real.pi * x)) (turn i ω) 0 j m y) ∧
      {j | ∃ m y, Arrives 3 (fun x => 2 + Real.sin (2 * Real.pi * x)) (turn i ω) 0 j m y ∧ y < u}.Finite := by
    rw [ae_all_iff]
    intro i
    refine ae_of_ae_map (hm i) (p := fun ω : Draws => Pos ω ∧
      (∀ j, ∃ m y, Arrives 3 (fun x => 2 + Real.sin (2 * Real.pi * x)) ω 0 j m y) ∧
      {j | ∃ m y, Arrives 3 (fun x => 2 + Real.sin (2 * Real.pi * x)) ω 0 j m y ∧ y < u}.Finite) ?_
    rw [h2 i]
    show ∀ᵐ ω ∂law, _
    filter_upwards [ae_pos, ae_return hR hinf, ae_finite hR hu] with ω g1 g2 g3
    exact ⟨g1, g2, g3⟩
  have hae : ∀ᵐ ω ∂law, ∃ n, PoissonNet ℕ (fun i : Fin 2 => i.1) (fun _ => 3)
      (fun _ x => 2 + Real.sin (2 * Real.pi * x)) (fun i => turn i ω) u n := by
    filter_upwards [h1] with ω hω
    exact two_run (fun _ => hR.pos) (fun i => (hω i).1) (fun i => (hω i).2.1) (fun i => (hω i).2.2)
  classical
  refine ⟨fun ω => if h : ∃ n, PoissonNet ℕ (fun i : Fin 2 => i.1) (fun _ => 3)
      (fun _ x => 2 + Real.sin (2 * Real.pi * x)) (fun i => turn i ω) u n then h.choose else Net.init (twoNet (fun _ => 3)
      (fun _ _ => 0) (fun i => turn i ω)) (fun _ => true) true twoProbs, ?_⟩
  filter_upwards [hae] with ω h
  rw [dif_pos h]
  exact h.choose_spec

end example_

end Verif.ThinSpec
