import Mathlib.Probability.Independence.InfinitePi
import Mathlib.MeasureTheory.Measure.Lebesgue.Basic

/-! # Machines fed with independent random draws (proof support)

A machine looks at one draw of a sequence in each step, namely at draw number `idx s` in state `s`. If it makes use of
it, the number grows. -/

namespace Verif

open MeasureTheory ProbabilityTheory Set
open scoped ENNReal

/-- The law of one call of `uniform()`. -/
noncomputable def unif01 : Measure ℝ := volume.restrict (Ico 0 1)

instance : IsProbabilityMeasure unif01 := ⟨by simp [unif01]⟩

/-- The law of all calls of `uniform()`: independent draws. -/
noncomputable def unifLaw : Measure (ℕ → ℝ) := Measure.infinitePi fun _ : ℕ => unif01

instance : IsProbabilityMeasure unifLaw := by unfold unifLaw; infer_instance

/-- A function into a set without structure that takes countably many values, each on a measurable set. -/
structure Discrete {Ω σ : Type*} [MeasurableSpace Ω] (f : Ω → σ) : Prop where
  meas : ∀ s, MeasurableSet {ω | f ω = s}
  count : (range f).Countable

theorem Discrete.set {Ω σ : Type*} [MeasurableSpace Ω] {f : Ω → σ} (h : Discrete f) (S : Set σ) :
    MeasurableSet {ω | f ω ∈ S} := by
  have : {ω | f ω ∈ S} = ⋃ s ∈ range f ∩ S, {ω | f ω = s} := by
    ext ω; simp
  rw [this]
  exact MeasurableSet.biUnion (h.count.mono inter_subset_left) fun s _ => h.meas s

theorem Discrete.comp {Ω σ τ : Type*} [MeasurableSpace Ω] {f : Ω → σ} (h : Discrete f) (g : σ → τ) :
    Discrete (fun ω => g (f ω)) :=
  ⟨fun t => h.set {s | g s = t}, by rw [range_comp' g f]; exact h.count.image g⟩

theorem Discrete.const {Ω σ : Type*} [MeasurableSpace Ω] (s : σ) : Discrete (fun _ : Ω => s) :=
  ⟨fun t => by by_cases h : s = t <;> simp [h], (countable_singleton s).mono (by rintro _ ⟨_, rfl⟩; rfl)⟩

theorem Discrete.ite {Ω σ : Type*} [MeasurableSpace Ω] {f g : Ω → σ} {p : Ω → Prop} [DecidablePred p]
    (hp : MeasurableSet {ω | p ω}) (hf : Discrete f) (hg : Discrete g) :
    Discrete (fun ω => if p ω then f ω else g ω) := by
  refine ⟨fun t => ?_, (hf.count.union hg.count).mono ?_⟩
  · have : {ω | (if p ω then f ω else g ω) = t} = ({ω | p ω} ∩ {ω | f ω = t}) ∪ ({ω | p ω}ᶜ ∩ {ω | g ω = t}) := by
      ext ω; by_cases h : p ω <;> simp [h]
    rw [this]
    exact (hp.inter (hf.meas t)).union (hp.compl.inter (hg.meas t))
  · rintro _ ⟨ω, rfl⟩
    by_cases h : p ω
    · left; exact ⟨ω, by simp [h]⟩
    · right; exact ⟨ω, by simp [h]⟩

/-- A machine that is fed with draws. -/
structure Machine (σ : Type*) where
  step : σ → ℝ → σ
  idx : σ → ℕ

namespace Machine

variable {σ : Type*} (M : Machine σ)

/-- The state after `m` steps. -/
def run (ω : ℕ → ℝ) (s : σ) : ℕ → σ
  | 0 => s
  | m + 1 => M.step (run ω s m) (ω (M.idx (run ω s m)))

/-- What is assumed of a machine. -/
structure Ok : Prop where
  mono : ∀ s u, M.idx s ≤ M.idx (M.step s u)
  same : ∀ s u u', M.idx (M.step s u) = M.idx s → M.step s u' = M.step s u
  disc : ∀ s, Discrete (M.step s)

variable {M}

theorem Ok.local_ (h : M.Ok) (s : σ) (m : ℕ) (ω ω' : ℕ → ℝ) (hω : ∀ i < M.idx (M.run ω s m), ω' i = ω i) :
    M.run ω' s m = M.run ω s m := by
  induction m with
  | zero => rfl
  | succ m ih =>
    simp only [run] at hω ⊢
    have h1 := h.mono (M.run ω s m) (ω (M.idx (M.run ω s m)))
    rw [ih fun i hi => hω i (by omega)]
    by_cases h2 : M.idx (M.step (M.run ω s m) (ω (M.idx (M.run ω s m)))) = M.idx (M.run ω s m)
    · exact h.same _ _ _ h2
    · rw [hω _ (by omega)]

theorem Ok.discrete (h : M.Ok) (s : σ) (m : ℕ) : Discrete fun ω => M.run ω s m := by
  induction m with
  | zero => exact Discrete.const s
  | succ m ih =>
    have hd : ∀ r t, MeasurableSet {ω : ℕ → ℝ | M.step r (ω (M.idx r)) = t} := fun r t => by
      have : MeasurableSet ((fun ω : ℕ → ℝ => ω (M.idx r)) ⁻¹' {u | M.step r u = t}) :=
        measurableSet_preimage (measurable_pi_apply _) ((h.disc r).meas t)
      exact this
    refine ⟨fun t => ?_, ?_⟩
    · have : {ω | M.run ω s (m + 1) = t} = ⋃ r ∈ range fun ω => M.run ω s m,
          ({ω | M.run ω s m = r} ∩ {ω | M.step r (ω (M.idx r)) = t}) := by
        ext ω
        simp only [run, mem_ofPred_eq, mem_range, iUnion_exists, iUnion_iUnion_eq', mem_iUnion, mem_inter_iff]
        constructor
        · intro h'; exact ⟨ω, rfl, h'⟩
        · rintro ⟨ω', h1, h2⟩; rw [h1]; exact h2
      rw [this]
      exact MeasurableSet.biUnion ih.count fun r _ => (ih.meas r).inter (hd r t)
    · refine (ih.count.biUnion (t := fun r _ => range (M.step r)) fun r _ => (h.disc r).count).mono ?_
      rintro _ ⟨ω, rfl⟩
      simp only [mem_iUnion]
      exact ⟨_, ⟨ω, rfl⟩, ω (M.idx (M.run ω s m)), rfl⟩

/-- A draw is independent of what only depends on earlier ones. -/
theorem indep_draw (A : Set (ℕ → ℝ)) (hA : MeasurableSet A) (c : ℕ) (hdep : ∀ ω ω', (∀ i < c, ω' i = ω i) → ω ∈ A → ω' ∈ A)
    (I : Set ℝ) (hI : MeasurableSet I) :
    unifLaw (A ∩ {ω | ω c ∈ I}) = unifLaw A * unif01 I := by
  have hind : iIndepFun (fun (i : ℕ) (ω : ℕ → ℝ) => ω i) unifLaw :=
    iIndepFun_infinitePi (P := fun _ : ℕ => unif01) (X := fun _ x => x) fun _ => measurable_id
  have h2 := hind.indepFun_finset (Finset.range c) {c} (by simp) fun i => measurable_pi_apply i
  let ext : ((i : Finset.range c) → ℝ) → ℕ → ℝ := fun x i => if h : i ∈ Finset.range c then x ⟨i, h⟩ else 0
  have hext : Measurable ext := by
    refine measurable_pi_lambda _ fun i => ?_
    by_cases h : i ∈ Finset.range c
    · simp only [ext, h, dif_pos]; exact measurable_pi_apply _
    · simp only [ext, h]; exact measurable_const
  have h3 := h2.measure_inter_preimage_eq_mul (ext ⁻¹' A) ((fun x => x ⟨c, by simp⟩) ⁻¹' I) (hext hA)
    (measurableSet_preimage (measurable_pi_apply (X := fun _ : ({c} : Finset ℕ) => ℝ) ⟨c, by simp⟩) hI)
  have e1 : (fun (ω : ℕ → ℝ) (i : Finset.range c) => ω i) ⁻¹' (ext ⁻¹' A) = A := by
    ext ω
    simp only [mem_preimage]
    have : ∀ i < c, ext (fun i : Finset.range c => ω i) i = ω i := fun i hi => by simp [ext, hi]
    exact ⟨hdep _ _ fun i hi => (this i hi).symm, hdep _ _ this⟩
  have e2 : (fun (ω : ℕ → ℝ) (i : ({c} : Finset ℕ)) => ω i) ⁻¹' ((fun x => x ⟨c, by simp⟩) ⁻¹' I) = {ω | ω c ∈ I} := rfl
  rw [e1, e2] at h3
  rw [h3]
  congr 1
  exact (measurePreserving_eval_infinitePi (fun _ : ℕ => unif01) c).measure_preimage hI.nullMeasurableSet

/-- If in each state of `S` the next draw falls into `I s` with probability `p`, then also in the states of `S` reached
after `m` steps. -/
theorem Ok.next (h : M.Ok) (s : σ) (m : ℕ) (S : Set σ) (I : σ → Set ℝ) (hI : ∀ r, MeasurableSet (I r)) (p : ℝ≥0∞)
    (hp : ∀ r ∈ S, unif01 (I r) = p) :
    unifLaw {ω | M.run ω s m ∈ S ∧ ω (M.idx (M.run ω s m)) ∈ I (M.run ω s m)} = unifLaw {ω | M.run ω s m ∈ S} * p := by
  have hd := h.discrete s m
  set C := (range fun ω => M.run ω s m) ∩ S with hC
  have hcount : C.Countable := hd.count.mono inter_subset_left
  have e1 : {ω | M.run ω s m ∈ S ∧ ω (M.idx (M.run ω s m)) ∈ I (M.run ω s m)} =
      ⋃ r ∈ C, ({ω | M.run ω s m = r} ∩ {ω | ω (M.idx r) ∈ I r}) := by
    ext ω
    simp only [mem_ofPred_eq, mem_iUnion, mem_inter_iff, exists_prop, hC, mem_range]
    constructor
    · rintro ⟨h1, h2⟩; exact ⟨_, ⟨⟨ω, rfl⟩, h1⟩, rfl, h2⟩
    · rintro ⟨r, ⟨-, h1⟩, h2, h3⟩; rw [h2]; exact ⟨h1, h3⟩
  have e2 : {ω | M.run ω s m ∈ S} = ⋃ r ∈ C, {ω | M.run ω s m = r} := by
    ext ω
    simp only [mem_ofPred_eq, mem_iUnion, exists_prop, hC, mem_inter_iff, mem_range]
    constructor
    · intro h1; exact ⟨_, ⟨⟨ω, rfl⟩, h1⟩, rfl⟩
    · rintro ⟨r, ⟨-, h1⟩, h2⟩; rw [h2]; exact h1
  have hdis : C.PairwiseDisjoint fun r => {ω | M.run ω s m = r} := by
    intro r _ r' _ hrr
    rw [Function.onFun, Set.disjoint_left]
    rintro ω h1 h2
    simp only [mem_ofPred_eq] at h1 h2
    exact hrr (h1.symm.trans h2)
  have hm : ∀ r, MeasurableSet {ω : ℕ → ℝ | ω (M.idx r) ∈ I r} := fun r => by
    have : MeasurableSet ((fun ω : ℕ → ℝ => ω (M.idx r)) ⁻¹' I r) :=
      measurableSet_preimage (measurable_pi_apply _) (hI r)
    exact this
  rw [e1, e2, measure_biUnion hcount (hdis.mono fun r => inter_subset_left) fun r _ => (hd.meas r).inter (hm r), measure_biUnion hcount hdis fun r _ => hd.meas r,
    ← ENNReal.tsum_mul_right]
  refine tsum_congr fun r => ?_
  rw [indep_draw _ (hd.meas r) (M.idx r) ?_ _ (hI r), hp r r.2.2]
  intro ω ω' hω h1
  have h1 : M.run ω s m = r := h1
  show M.run ω' s m = r
  rw [← h1]
  exact h.local_ s m ω ω' (by rw [h1]; exact hω)

end Machine

end Verif
