import Verif.Props.Thinning
import Mathlib.Probability.Distributions.Poisson.Basic
import Mathlib.Analysis.SpecialFunctions.Trigonometric.Basic
import Mathlib.MeasureTheory.Constructions.BorelSpace.Order

/-! # C95: repeated calls of `poisson_random_measure` give a Poisson process -/

namespace Verif.ThinSpec

open Verif MeasureTheory Set Real ProbabilityTheory Thin QueueSpec
open scoped ENNReal Topology

/-! ## Repeated calls -/

/-- A call of `poisson_random_measure` at time `t` after `m` pairs of draws have been used: it
returns `x` after using the pairs `m, ..., m' - 1`. -/
def Call (r : ℝ) (rate : ℝ → ℝ) (ω : Draws) (m : ℕ) (t : ℝ) (m' : ℕ) (x : ℝ) : Prop :=
  poissonRandomMeasure r rate (fun i => expoOf ω (m + i)) (fun i => unifOf ω (m + i)) (m' - m) t = some x ∧
    ∀ f < m' - m, poissonRandomMeasure r rate (fun i => expoOf ω (m + i)) (fun i => unifOf ω (m + i)) f t = none

/-- After `j` calls, the first at time `t` and each of the others at the time returned by the one
before, `m` pairs of draws have been used and the last call returned `x`. -/
inductive Arrives (r : ℝ) (rate : ℝ → ℝ) (ω : Draws) (t : ℝ) : ℕ → ℕ → ℝ → Prop
  | start : Arrives r rate ω t 0 0 t
  | call {j m x m' x'} : Arrives r rate ω t j m x → Call r rate ω m x m' x' → Arrives r rate ω t (j + 1) m' x'

/-- The calls that return a time in `(a, b]`. -/
def arrivals (r : ℝ) (rate : ℝ → ℝ) (ω : Draws) (t a b : ℝ) : Set ℕ :=
  {j | ∃ m x, Arrives r rate ω t (j + 1) m x ∧ a < x ∧ x ≤ b}

/-- `k₁` calls return a time in `(a, s₁]`, `k₂` a time in `(s₁, s₂]`, and so on. -/
def Counts (r : ℝ) (rate : ℝ → ℝ) (ω : Draws) (t : ℝ) : ℝ → List (ℝ × ℕ) → Prop
  | _, [] => True
  | a, (s, k) :: L => (arrivals r rate ω t a s).encard = k ∧ Counts r rate ω t s L

/-- The probability of such counts for independent Poisson variables. -/
noncomputable def indepPoisson (rate : ℝ → ℝ) : ℝ → List (ℝ × ℕ) → ℝ
  | _, [] => 1
  | a, (s, k) :: L => (poissonMeasure (∫ x in a..s, rate x).toNNReal).real {k} * indepPoisson rate s L

section calls

variable {r : ℝ} {rate : ℝ → ℝ} {ω : Draws} {t a b : ℝ}

/-- The time after `m` pairs of draws. -/
noncomputable def pt (r : ℝ) (ω : Draws) (t : ℝ) : ℕ → ℝ
  | 0 => t
  | n + 1 => cand r ω t n

theorem pt_succ (n : ℕ) : pt r ω t (n + 1) = pt r ω t n + 1 / r * (ω n).1 := by cases n <;> rfl

theorem candidate_shift (m n : ℕ) : candidate r (fun i => expoOf ω (m + i)) (pt r ω t m) n = cand r ω t (m + n) := by
  induction n with
  | zero => exact (pt_succ m).symm
  | succ n ih =>
    show candidate r (fun i => expoOf ω (m + i)) (pt r ω t m) n + 1 / r * (ω (m + (n + 1))).1 = _
    rw [ih]
    rfl

theorem call_iff (m m' : ℕ) (x : ℝ) : Call r rate ω m (pt r ω t m) m' x ↔
    ∃ n, m' = m + n + 1 ∧ x = cand r ω t (m + n) ∧ acc r rate ω t (m + n) ∧ ∀ i < n, ¬acc r rate ω t (m + i) := by
  have hacc : ∀ n, accepted r rate (fun i => expoOf ω (m + i)) (fun i => unifOf ω (m + i)) (pt r ω t m) n ↔ acc r rate ω t (m + n) := fun n => by
    show r * (ω (m + n)).2 ≤ rate (candidate r (fun i => expoOf ω (m + i)) (pt r ω t m) n) ↔ r * (ω (m + n)).2 ≤ rate (cand r ω t (m + n))
    rw [candidate_shift]
  have key : ∀ f x, poissonRandomMeasure r rate (fun i => expoOf ω (m + i)) (fun i => unifOf ω (m + i)) f (pt r ω t m) = some x ↔
      ∃ n, n < f ∧ x = cand r ω t (m + n) ∧ acc r rate ω t (m + n) ∧ ∀ i < n, ¬acc r rate ω t (m + i) := by
    intro f x
    have := thinLoop_iff r rate (fun i => expoOf ω (m + i)) (fun i => unifOf ω (m + i)) (pt r ω t m) x f 0
    rw [show poissonRandomMeasure r rate (fun i => expoOf ω (m + i)) (fun i => unifOf ω (m + i)) f (pt r ω t m) = some x ↔ _ from this]
    simp only [zero_le, true_and, zero_add, candidate_shift, hacc, true_implies]
  unfold Call
  constructor
  · rintro ⟨h1, h2⟩
    obtain ⟨n, hn, hx, ha, hno⟩ := (key _ _).mp h1
    refine ⟨n, ?_, hx, ha, hno⟩
    by_contra hne
    have := h2 (n + 1) (by omega)
    rw [(key (n + 1) x).mpr ⟨n, Nat.lt_succ_self n, hx, ha, hno⟩] at this
    cases this
  · rintro ⟨n, rfl, hx, ha, hno⟩
    have e : m + n + 1 - m = n + 1 := by omega
    rw [e]
    refine ⟨(key _ _).mpr ⟨n, Nat.lt_succ_self n, hx, ha, hno⟩, fun f hf => ?_⟩
    by_contra hne
    obtain ⟨y, hy⟩ := Option.ne_none_iff_exists'.mp hne
    obtain ⟨n', hn', -, ha', -⟩ := (key _ _).mp hy
    exact hno n' (by omega) ha'

open Classical in
theorem arrives_iff (j m : ℕ) (x : ℝ) : Arrives r rate ω t j m x ↔
    x = pt r ω t m ∧ Nat.count (acc r rate ω t) m = j ∧ ∀ n, m = n + 1 → acc r rate ω t n := by
  constructor
  · intro h
    induction h with
    | start => exact ⟨rfl, rfl, fun n h => by cases h⟩
    | @call j m x m' x' _ hc ih =>
      obtain ⟨rfl, hj, -⟩ := ih
      obtain ⟨n, rfl, hx, ha, hno⟩ := (call_iff m m' x').mp hc
      refine ⟨hx, ?_, fun n' hn' => by cases hn'; exact ha⟩
      rw [Nat.count_succ, if_pos ha, Nat.count_add, hj, Nat.count_iff_forall_not.mpr hno]
  · induction m using Nat.strong_induction_on generalizing j x with
    | _ m ih =>
      rintro ⟨rfl, hj, hacc⟩
      cases m with
      | zero =>
        rw [Nat.count_zero] at hj
        subst hj
        exact .start
      | succ n =>
        have ha := hacc n rfl
        -- the last moment not after `n` at which a call had just returned
        obtain ⟨m0, hm0, hret, hno⟩ : ∃ m0 ≤ n, (∀ i, m0 = i + 1 → acc r rate ω t i) ∧ ∀ i, m0 ≤ i → i < n → ¬acc r rate ω t i := by
          by_cases h : ∃ i, i < n ∧ acc r rate ω t i
          · obtain ⟨i0, hi0⟩ := h
            have hP := Nat.findGreatest_spec (P := fun i => i < n ∧ acc r rate ω t i) (n := n) hi0.1.le hi0
            set g := Nat.findGreatest (fun i => i < n ∧ acc r rate ω t i) n with hg
            refine ⟨g + 1, hP.1, fun i hi => by cases hi; exact hP.2, fun i hgi hin hai => ?_⟩
            have := Nat.findGreatest_is_greatest (P := fun i => i < n ∧ acc r rate ω t i) (n := n) (k := i) (by omega) hin.le
            exact this ⟨hin, hai⟩
          · exact ⟨0, Nat.zero_le _, ⟨(fun i hi => by cases hi), fun i _ hin hai => h ⟨i, hin, hai⟩⟩⟩
        obtain ⟨d, rfl⟩ := Nat.exists_eq_add_of_le hm0
        have h0 := ih m0 (by omega) (Nat.count (acc r rate ω t) m0) (pt r ω t m0) ⟨rfl, rfl, hret⟩
        have hc := (call_iff m0 (m0 + d + 1) (pt r ω t (m0 + d + 1))).mpr ⟨d, rfl, rfl, ha, fun i hi => hno _ (by omega) (by omega)⟩
        have := Arrives.call h0 hc
        rw [Nat.count_succ, if_pos ha, Nat.count_add, Nat.count_iff_forall_not (p := fun k => acc r rate ω t (m0 + k)) |>.mpr fun i hi => hno _ (by omega) (by omega)] at hj
        rwa [show j = Nat.count (acc r rate ω t) m0 + 1 from hj.symm]

/-- The times returned by the calls are the accepted candidates. -/
theorem arrivals_encard : (arrivals r rate ω t a b).encard = (hits r rate ω t a b).encard := by
  classical
  have h : arrivals r rate ω t a b = Nat.count (acc r rate ω t) '' hits r rate ω t a b := by
    ext j
    simp only [arrivals, hits, mem_ofPred_eq, mem_image, arrives_iff]
    constructor
    · rintro ⟨m, x, ⟨rfl, hj, hacc⟩, ha, hb⟩
      cases m with
      | zero => simp at hj
      | succ n =>
        have := hacc n rfl
        rw [Nat.count_succ, if_pos this] at hj
        exact ⟨n, ⟨ha, hb, this⟩, Nat.succ_injective hj⟩
    · rintro ⟨n, ⟨ha, hb, hacc⟩, rfl⟩
      refine ⟨n + 1, _, ⟨rfl, ?_, fun i hi => by cases hi; exact hacc⟩, ha, hb⟩
      rw [Nat.count_succ, if_pos hacc]
  rw [h, InjOn.encard_image]
  intro m hm n hn he
  exact Nat.count_injective hm.2.2 hn.2.2 he

theorem counts_iff (L : List (ℝ × ℕ)) : Counts r rate ω t a L ↔ Cnt r rate ω t a L := by
  induction L generalizing a with
  | nil => rfl
  | cons y L ih =>
    obtain ⟨s, k⟩ := y
    simp only [Counts, Cnt]
    rw [arrivals_encard, ih]

end calls

section main

variable {r : ℝ} {rate : ℝ → ℝ} {t : ℝ}

theorem ae_pos : ∀ᵐ ω ∂law, Pos ω := by
  have := (prob_compl_eq_zero_iff measurableSet_pos).mpr law_pos
  exact this

theorem int_nonneg (h : Rate rate r) {t s : ℝ} (hts : t ≤ s) : 0 ≤ ∫ x in t..s, rate x := h.mean_nonneg hts

theorem poisProd_eq (h : Rate rate r) (t : ℝ) (L : List (ℝ × ℕ)) (hi : Incr t L) : poisProd rate t L = indepPoisson rate t L := by
  induction L generalizing t with
  | nil => rfl
  | cons y L ih =>
    obtain ⟨s, k⟩ := y
    rw [poisProd, indepPoisson, ih s hi.2, poissonMeasure_real_singleton, Real.coe_toNNReal _ (int_nonneg h hi.1)]
    rfl

/-- **C95.** For a measurable rate function with values in `[0, rate_max]`, the times returned by
repeated calls of `poisson_random_measure` form a Poisson process with that rate: the numbers of
arrivals in consecutive intervals are independent, and Poisson with the integrals of the rate. -/
theorem C95_poisson (h : Rate rate r) (t : ℝ) (L : List (ℝ × ℕ)) (hi : Incr t L) :
    law.real {ω | Counts r rate ω t t L} = indepPoisson rate t L := by
  rw [← poisProd_eq h t L hi, ← law_ev h t L hi, measureReal_def]
  congr 1
  refine measure_congr ?_
  filter_upwards [ae_pos] with ω hω
  refine propext ?_
  show Counts r rate ω t t L ↔ ω ∈ Ev r rate t L
  rw [counts_iff]
  simp [Ev, hω]

theorem measurableSet_arrivals (hm : Measurable rate) (t a b : ℝ) (k : ℕ) :
    MeasurableSet {ω | (arrivals r rate ω t a b).encard = k} := by
  simp only [arrivals_encard]
  have := measurableSet_encard (fun n => measurableSet_hits (r := r) hm (f := fun _ => a) (g := fun _ => b) measurable_const measurable_const n) k
  exact measurable_prodMk_left this (x := t)

theorem tsum_poisson (m : NNReal) : ∑' k : ℕ, (poissonMeasure m) {k} = 1 := by
  rw [← measure_iUnion (fun i j hij => by simpa using hij) (fun _ => measurableSet_singleton _), iUnion_of_singleton, measure_univ]

/-- **C95.** The number of arrivals in `(a, b]` is Poisson with mean the integral of the rate from
`a` to `b`, whatever the time `t` of the first call before `a`. -/
theorem C95_count (h : Rate rate r) {t a b : ℝ} (hta : t ≤ a) (hab : a ≤ b) (k : ℕ) :
    law.real {ω | (arrivals r rate ω t a b).encard = k} = (poissonMeasure (∫ x in a..b, rate x).toNNReal).real {k} := by
  have hj : ∀ k' : ℕ, law ({ω | (arrivals r rate ω t t a).encard = k'} ∩ {ω | (arrivals r rate ω t a b).encard = k}) =
      (poissonMeasure (∫ x in t..a, rate x).toNNReal) {k'} * (poissonMeasure (∫ x in a..b, rate x).toNNReal) {k} := fun k' => by
    have := C95_poisson h t [(a, k'), (b, k)] ⟨hta, hab, trivial⟩
    simp only [Counts, indepPoisson, and_true, mul_one, measureReal_def, ← ENNReal.toReal_mul] at this
    exact (ENNReal.toReal_eq_toReal_iff' (measure_ne_top _ _) (ENNReal.mul_ne_top (measure_ne_top _ _) (measure_ne_top _ _))).mp this
  have hs : ∀ k' : ℕ, law {ω | (arrivals r rate ω t t a).encard = k'} = (poissonMeasure (∫ x in t..a, rate x).toNNReal) {k'} := fun k' => by
    have := C95_poisson h t [(a, k')] ⟨hta, trivial⟩
    simp only [Counts, indepPoisson, and_true, mul_one, measureReal_def] at this
    exact (ENNReal.toReal_eq_toReal_iff' (measure_ne_top _ _) (measure_ne_top _ _)).mp this
  have hd : Pairwise (Function.onFun Disjoint fun k' : ℕ => {ω | (arrivals r rate ω t t a).encard = k'}) := by
    intro i j hij
    rw [Function.onFun, disjoint_left]
    intro ω h1 h2
    exact hij (by exact_mod_cast (h1 : (arrivals r rate ω t t a).encard = i).symm.trans h2)
  have hm := fun k' : ℕ => measurableSet_arrivals (r := r) h.meas t t a k'
  have hB := measurableSet_arrivals (r := r) h.meas t a b k
  have hall : law (⋃ k' : ℕ, {ω | (arrivals r rate ω t t a).encard = k'}) = 1 := by
    rw [measure_iUnion hd hm, ← tsum_poisson (∫ x in t..a, rate x).toNNReal]
    exact tsum_congr hs
  have hnull := (prob_compl_eq_zero_iff (MeasurableSet.iUnion hm)).mpr hall
  rw [measureReal_def, measureReal_def]
  congr 1
  calc law {ω | (arrivals r rate ω t a b).encard = k}
      = law ((⋃ k' : ℕ, {ω | (arrivals r rate ω t t a).encard = k'}) ∩ {ω | (arrivals r rate ω t a b).encard = k}) := by
        refine measure_congr ?_
        have : ∀ᵐ ω ∂law, ω ∈ ⋃ k' : ℕ, {ω | (arrivals r rate ω t t a).encard = k'} := hnull
        filter_upwards [this] with ω hω
        refine propext ⟨fun h => ⟨hω, h⟩, fun h => h.2⟩
    _ = ∑' k' : ℕ, law ({ω | (arrivals r rate ω t t a).encard = k'} ∩ {ω | (arrivals r rate ω t a b).encard = k}) := by
        rw [iUnion_inter, measure_iUnion (fun i j hij => (hd hij).mono inter_subset_left inter_subset_left) fun k' => (hm k').inter hB]
    _ = _ := by
        simp only [hj]
        rw [ENNReal.tsum_mul_right, tsum_poisson, one_mul]

theorem count_zero (h : Rate rate r) {t s : ℝ} (hts : t ≤ s) :
    law.real {ω | (arrivals r rate ω t t s).encard = 0} = exp (-∫ x in t..s, rate x) := by
  have := C95_count h le_rfl hts 0
  rw [poissonMeasure_real_singleton, Real.coe_toNNReal _ (int_nonneg h hts)] at this
  simpa using this

theorem no_hit_iff (hr : 0 < r) {ω : Draws} (hp : Pos ω) {t s : ℝ} : (arrivals r rate ω t t s).encard = 0 ↔
    ∀ n, cand r ω t n ≤ s → ¬acc r rate ω t n := by
  rw [arrivals_encard, encard_eq_zero, eq_empty_iff_forall_notMem]
  refine forall_congr' fun n => ?_
  simp only [hits, mem_ofPred_eq, lt_cand hr hp n, true_and, not_and]

theorem cand_mono (hr : 0 < r) {ω : Draws} (hp : Pos ω) : Monotone (cand r ω t) :=
  monotone_nat_of_le_succ fun n => (cand_lt_succ hr hp n).le

/-- The value returned is at most `s` exactly if a candidate not after `s` is accepted. -/
theorem returned_iff (hr : 0 < r) {ω : Draws} (hp : Pos ω) {t s : ℝ} :
    (∃ fuel x, poissonRandomMeasure r rate (expoOf ω) (unifOf ω) fuel t = some x ∧ x ≤ s) ↔
      ¬(arrivals r rate ω t t s).encard = 0 := by
  classical
  rw [no_hit_iff hr hp]
  constructor
  · rintro ⟨fuel, x, hx, hxs⟩ hno
    obtain ⟨n, rfl, ha, -⟩ := (C30_first_accepted r rate (expoOf ω) (unifOf ω) t x).mp ⟨fuel, hx⟩
    exact hno n hxs ha
  · intro hno
    push Not at hno
    obtain ⟨n, hns, ha⟩ := hno
    have hex : ∃ n, acc r rate ω t n := ⟨n, ha⟩
    obtain ⟨fuel, hf⟩ := (C30_first_accepted r rate (expoOf ω) (unifOf ω) t (cand r ω t (Nat.find hex))).mpr
      ⟨Nat.find hex, rfl, Nat.find_spec hex, fun m hm => Nat.find_min hex hm⟩
    exact ⟨fuel, _, hf, (cand_mono hr hp (Nat.find_min' hex ha)).trans hns⟩

/-- **C95.** The next arrival after `t` comes before `s` with probability `1 - exp (-∫ rate)`. -/
theorem C95_next (h : Rate rate r) {t s : ℝ} (hts : t ≤ s) :
    law.real {ω | ∃ fuel x, poissonRandomMeasure r rate (expoOf ω) (unifOf ω) fuel t = some x ∧ x ≤ s} =
      1 - exp (-∫ x in t..s, rate x) := by
  rw [← count_zero h hts]
  have hm : MeasurableSet {ω | (arrivals r rate ω t t s).encard = 0} := measurableSet_arrivals h.meas t t s 0
  rw [← probReal_compl_eq_one_sub hm, measureReal_def, measureReal_def]
  congr 1
  refine measure_congr ?_
  filter_upwards [ae_pos] with ω hω
  exact propext (returned_iff h.pos hω)

/-- **C95.** The probability that the loop never ends is the limit of `exp (-∫ rate)`. -/
theorem C95_never (h : Rate rate r) (t : ℝ) :
    Filter.Tendsto (fun s => exp (-∫ x in t..s, rate x)) Filter.atTop
      (𝓝 (law.real {ω | ∀ fuel, poissonRandomMeasure r rate (expoOf ω) (unifOf ω) fuel t = none})) := by
  have hlim := tendsto_measure_iInter_atTop (μ := law) (s := fun s : ℝ => {ω | Pos ω ∧ (arrivals r rate ω t t s).encard = 0})
    (fun s => (measurableSet_pos.inter (measurableSet_arrivals h.meas t t s 0)).nullMeasurableSet) (by
      intro s s' hs ω hω
      refine ⟨hω.1, ?_⟩
      have := (no_hit_iff h.pos hω.1).mp hω.2
      exact (no_hit_iff h.pos hω.1).mpr fun n hn => this n (hn.trans hs)) ⟨0, measure_ne_top _ _⟩
  have hset : law (⋂ s : ℝ, {ω | Pos ω ∧ (arrivals r rate ω t t s).encard = 0}) =
      law {ω | ∀ fuel, poissonRandomMeasure r rate (expoOf ω) (unifOf ω) fuel t = none} := by
    refine measure_congr ?_
    filter_upwards [ae_pos] with ω hω
    refine propext ?_
    show ω ∈ (⋂ s : ℝ, {ω | Pos ω ∧ (arrivals r rate ω t t s).encard = 0}) ↔
      ∀ fuel, poissonRandomMeasure r rate (expoOf ω) (unifOf ω) fuel t = none
    simp only [mem_iInter, mem_ofPred_eq, hω, true_and, no_hit_iff h.pos hω]
    have ht := C30_terminates_iff r rate (expoOf ω) (unifOf ω) t
    constructor
    · intro hno fuel
      by_contra hne
      obtain ⟨y, hy⟩ := Option.ne_none_iff_exists'.mp hne
      obtain ⟨n, hn⟩ := ht.mp ⟨fuel, y, hy⟩
      exact hno (cand r ω t n) n le_rfl hn
    · intro hnone s n _ ha
      obtain ⟨fuel, x, hx⟩ := ht.mpr ⟨n, ha⟩
      rw [hnone fuel] at hx
      cases hx
  rw [hset] at hlim
  have hlim' := (ENNReal.tendsto_toReal (measure_ne_top law _)).comp hlim
  refine Filter.Tendsto.congr' ?_ hlim'
  filter_upwards [Filter.eventually_ge_atTop t] with s hs
  rw [← count_zero h hs, measureReal_def]
  show (law _).toReal = (law _).toReal
  congr 1
  refine measure_congr ?_
  filter_upwards [ae_pos] with ω hω
  exact propext ⟨fun h => h.2, fun h => ⟨hω, h⟩⟩

/-- **C95.** The loop ends with probability one exactly if the integral of the rate is infinite. -/
theorem C95_ends_iff (h : Rate rate r) (t : ℝ) :
    law.real {ω | ∀ fuel, poissonRandomMeasure r rate (expoOf ω) (unifOf ω) fuel t = none} = 0 ↔
      Filter.Tendsto (fun s => ∫ x in t..s, rate x) Filter.atTop Filter.atTop := by
  constructor
  · intro h0
    have := C95_never h t
    rw [h0] at this
    exact Filter.tendsto_neg_atBot_iff.mp (tendsto_exp_comp_nhds_zero.mp this)
  · intro hinf
    exact tendsto_nhds_unique (C95_never h t) (tendsto_exp_atBot.comp (Filter.tendsto_neg_atTop_atBot.comp hinf))

/-- **C95.** If the rate is zero after `b`, the loop never ends with the probability of no arrival
before `b`, which is positive. -/
theorem C95_hangs (h : Rate rate r) {t b : ℝ} (hzero : ∀ x, b < x → rate x = 0) :
    law.real {ω | ∀ fuel, poissonRandomMeasure r rate (expoOf ω) (unifOf ω) fuel t = none} =
      exp (-∫ x in t..b, rate x) := by
  refine tendsto_nhds_unique (C95_never h t) (tendsto_const_nhds.congr' ?_)
  filter_upwards [Filter.eventually_ge_atTop b] with s hs
  rw [← intervalIntegral.integral_add_adjacent_intervals (h.integrable t b) (h.integrable b s)]
  have : ∫ x in b..s, rate x = 0 := by
    rw [intervalIntegral.integral_of_le hs, setIntegral_congr_fun measurableSet_Ioc fun x hx => hzero x hx.1]
    simp
  rw [this, add_zero]

/-! ## Rate functions that are not between zero and `rate_max` -/

/-- What the program makes of a rate function. -/
noncomputable def capped (r : ℝ) (rate : ℝ → ℝ) (x : ℝ) : ℝ := max 0 (min (rate x) r)

theorem capped_rate (hr : 0 < r) (hm : Measurable rate) : Rate (capped r rate) r where
  pos := hr
  meas := by unfold capped; fun_prop
  nonneg x := le_max_left _ _
  le x := max_le hr.le (min_le_right _ _)

theorem ae_unif : ∀ᵐ ω ∂law, ∀ n : ℕ, 0 < (ω n).2 ∧ (ω n).2 < 1 := by
  rw [ae_all_iff]
  intro n
  have hx : ∀ᵐ x ∂drawLaw, 0 < x.2 ∧ x.2 < 1 := by
    have h1 : ∀ᵐ u ∂(volume.restrict (Ico (0 : ℝ) 1)), 0 < u ∧ u < 1 := by
      rw [Measure.restrict_congr_set Ioo_ae_eq_Ico.symm]
      exact ae_restrict_mem measurableSet_Ioo
    exact Measure.quasiMeasurePreserving_snd.ae h1
  exact (measurePreserving_eval_infinitePi (fun _ : ℕ => drawLaw) n).quasiMeasurePreserving.ae hx

/-- **C95.** For any measurable rate function, the arrivals form a Poisson process with the rate cut
off at zero and at `rate_max`; a `rate_max` that is too small is not noticed. -/
theorem C95_capped (hr : 0 < r) (hm : Measurable rate) (t : ℝ) (L : List (ℝ × ℕ)) (hi : Incr t L) :
    law.real {ω | Counts r rate ω t t L} = indepPoisson (capped r rate) t L := by
  rw [← C95_poisson (capped_rate hr hm) t L hi, measureReal_def, measureReal_def]
  congr 1
  refine measure_congr ?_
  filter_upwards [ae_unif] with ω hω
  refine propext ?_
  show Counts r rate ω t t L ↔ Counts r (capped r rate) ω t t L
  rw [counts_iff, counts_iff]
  have hacc : ∀ n, acc r rate ω t n ↔ acc r (capped r rate) ω t n := fun n => by
    show r * (ω n).2 ≤ rate (cand r ω t n) ↔ r * (ω n).2 ≤ max 0 (min (rate (cand r ω t n)) r)
    have h0 := mul_pos hr (hω n).1
    have h1 : r * (ω n).2 ≤ r := mul_le_of_le_one_right hr.le (hω n).2.le
    rw [le_max_iff, le_min_iff]
    constructor
    · intro h; exact Or.inr ⟨h, h1⟩
    · rintro (h | h)
      · exact absurd h (not_le.mpr h0)
      · exact h.1
  have hh : ∀ a b, hits r rate ω t a b = hits r (capped r rate) ω t a b := fun a b => by
    ext n; simp only [hits, mem_ofPred_eq, hacc]
  have : ∀ (L : List (ℝ × ℕ)) (a : ℝ), Cnt r rate ω t a L ↔ Cnt r (capped r rate) ω t a L := by
    intro L
    induction L with
    | nil => intro a; rfl
    | cons y L ih =>
      obtain ⟨s, k⟩ := y
      intro a
      simp only [Cnt, hh, ih]
  exact this L t

/-! ## The hypotheses are met -/

/-- The example of the docstring: rate `2 + sin (2 π t)`, `rate_max = 3`. -/
theorem C95_met : Rate (fun x => 2 + sin (2 * π * x)) 3 ∧ Incr 0 [(1, 2), (3 / 2, 0), (2, 5)] where
  left := {
    pos := by norm_num
    meas := by fun_prop
    nonneg := fun x => by have := neg_one_le_sin (2 * π * x); linarith
    le := fun x => by have := sin_le_one (2 * π * x); linarith }
  right := by norm_num [Incr]

/-- A rate that is one until time one and zero afterwards: with probability `exp (-1)` the first call
never returns. -/
theorem C95_hang_met : law.real {ω | ∀ fuel, poissonRandomMeasure 1 (indicator (Iic 1) 1) (expoOf ω) (unifOf ω) fuel 0 = none} =
    exp (-1) := by
  have hR : Rate (indicator (Iic (1 : ℝ)) 1) 1 := {
    pos := one_pos
    meas := measurable_one.indicator measurableSet_Iic
    nonneg := fun x => indicator_nonneg (fun _ _ => zero_le_one) x
    le := fun x => by by_cases hx : x ≤ 1 <;> simp [indicator, hx] }
  rw [C95_hangs hR (b := 1) fun x hx => indicator_of_notMem (by simpa using hx) _]
  congr 2
  rw [intervalIntegral.integral_congr (g := fun _ => (1 : ℝ)) fun x hx => by
    rw [uIcc_of_le zero_le_one] at hx
    exact indicator_of_mem (M := ℝ) (s := Iic (1 : ℝ)) (mem_Iic.mpr hx.2) _]
  simp

/-- With rate two and `rate_max` one, the arrivals come at rate one: two in `(0, 1]` with
probability `exp (-1) / 2`, where the documentation promises `2 exp (-2)`. -/
theorem C95_capped_met : law.real {ω | Counts 1 (fun _ => 2) ω 0 0 [(1, 2)]} = exp (-1) / 2 := by
  rw [C95_capped one_pos measurable_const 0 _ (by norm_num [Incr])]
  have : capped 1 (fun _ => 2) = fun _ => 1 := by funext x; norm_num [capped]
  rw [this]
  simp [indepPoisson, poissonMeasure_real_singleton, Nat.factorial]

end main

end Verif.ThinSpec
