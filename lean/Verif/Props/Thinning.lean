import Verif.ThinMath
import Verif.Props.Queue4
import Mathlib.Probability.Distributions.Exponential
import Mathlib.Probability.ProductMeasure
import Mathlib.MeasureTheory.Measure.Lebesgue.Integral

/-! # The law of `poisson_random_measure` (C95)

The results of `exponential(scale)` and `uniform()` are random: all draws are independent, the
first are `scale` times a standard exponential, the second uniform on `[0, 1)`. -/

namespace Verif.ThinSpec

open Verif MeasureTheory Set Real ProbabilityTheory Thin QueueSpec
open scoped ENNReal

/-- What the random number generator returns: pairs of a standard exponential and a uniform draw. -/
abbrev Draws := ℕ → ℝ × ℝ

/-- The n-th call of `exponential(scale)`. -/
noncomputable def expoOf (ω : Draws) (n : ℕ) (scale : ℝ) : ℝ := scale * (ω n).1

/-- The n-th call of `uniform()`. -/
def unifOf (ω : Draws) (n : ℕ) : ℝ := (ω n).2

/-- The law of one pair of draws. -/
noncomputable def drawLaw : Measure (ℝ × ℝ) := (expMeasure 1).prod (volume.restrict (Ico 0 1))

instance : IsProbabilityMeasure (expMeasure 1) := isProbabilityMeasure_expMeasure one_pos

instance : IsProbabilityMeasure (volume.restrict (Ico (0 : ℝ) 1)) := ⟨by simp⟩

instance : IsProbabilityMeasure drawLaw := by unfold drawLaw; infer_instance

/-- The law of all the draws. -/
noncomputable def law : Measure Draws := Measure.infinitePi fun _ : ℕ => drawLaw

instance : IsProbabilityMeasure law := by unfold law; infer_instance

/-- The n-th candidate. -/
noncomputable def cand (r : ℝ) (ω : Draws) (t : ℝ) (n : ℕ) : ℝ := candidate r (expoOf ω) t n

/-- The n-th candidate is accepted. -/
def acc (r : ℝ) (lam : ℝ → ℝ) (ω : Draws) (t : ℝ) (n : ℕ) : Prop := accepted r lam (expoOf ω) (unifOf ω) t n

/-- The accepted candidates in `(a, b]`. -/
def hits (r : ℝ) (lam : ℝ → ℝ) (ω : Draws) (t a b : ℝ) : Set ℕ :=
  {n | a < cand r ω t n ∧ cand r ω t n ≤ b ∧ acc r lam ω t n}

/-- All the exponential draws are positive. -/
def Pos (ω : Draws) : Prop := ∀ n, 0 < (ω n).1

/-- The numbers of accepted candidates in consecutive intervals `(a, s₁]`, `(s₁, s₂]`, ... -/
def Cnt (r : ℝ) (lam : ℝ → ℝ) (ω : Draws) (t : ℝ) : ℝ → List (ℝ × ℕ) → Prop
  | _, [] => True
  | a, (s, k) :: L => (hits r lam ω t a s).encard = k ∧ Cnt r lam ω t s L

/-- The ends of the intervals increase. -/
def Incr : ℝ → List (ℝ × ℕ) → Prop
  | _, [] => True
  | a, (s, _) :: L => a ≤ s ∧ Incr s L

/-- One more draw before the others. -/
def cons (x : ℝ × ℝ) (ω : Draws) : Draws
  | 0 => x
  | n + 1 => ω n

section comb

variable {r : ℝ} {lam : ℝ → ℝ} {ω : Draws} {x : ℝ × ℝ} {t a b s : ℝ} {k : ℕ} {L : List (ℝ × ℕ)}

theorem cand_cons_zero : cand r (cons x ω) t 0 = t + 1 / r * x.1 := rfl

theorem cand_cons_succ (n : ℕ) : cand r (cons x ω) t (n + 1) = cand r ω (t + 1 / r * x.1) n := by
  induction n with
  | zero => rfl
  | succ n ih =>
    have h1 : cand r (cons x ω) t (n + 1 + 1) = cand r (cons x ω) t (n + 1) + 1 / r * (ω (n + 1)).1 := rfl
    have h2 : cand r ω (t + 1 / r * x.1) (n + 1) = cand r ω (t + 1 / r * x.1) n + 1 / r * (ω (n + 1)).1 := rfl
    rw [h1, h2, ih]

theorem acc_cons_zero : acc r lam (cons x ω) t 0 ↔ r * x.2 ≤ lam (t + 1 / r * x.1) := Iff.rfl

theorem acc_cons_succ (n : ℕ) : acc r lam (cons x ω) t (n + 1) ↔ acc r lam ω (t + 1 / r * x.1) n := by
  show r * (ω n).2 ≤ lam (cand r (cons x ω) t (n + 1)) ↔ r * (ω n).2 ≤ lam (cand r ω (t + 1 / r * x.1) n)
  rw [cand_cons_succ]

theorem cand_lt_succ (hr : 0 < r) (hp : Pos ω) (n : ℕ) : cand r ω t n < cand r ω t (n + 1) := by
  show cand r ω t n < cand r ω t n + 1 / r * (ω (n + 1)).1
  have := mul_pos (one_div_pos.mpr hr) (hp (n + 1))
  linarith

theorem lt_cand (hr : 0 < r) (hp : Pos ω) (n : ℕ) : t < cand r ω t n := by
  induction n with
  | zero =>
    show t < t + 1 / r * (ω 0).1
    have := mul_pos (one_div_pos.mpr hr) (hp 0)
    linarith
  | succ n ih => exact ih.trans (cand_lt_succ hr hp n)

theorem pos_cons : Pos (cons x ω) ↔ 0 < x.1 ∧ Pos ω :=
  ⟨fun h => ⟨h 0, fun n => h (n + 1)⟩, fun h n => by cases n with | zero => exact h.1 | succ n => exact h.2 n⟩

open Classical in
theorem hits_cons : (hits r lam (cons x ω) t a b).encard =
    (if a < t + 1 / r * x.1 ∧ t + 1 / r * x.1 ≤ b ∧ r * x.2 ≤ lam (t + 1 / r * x.1) then 1 else 0) +
      (hits r lam ω (t + 1 / r * x.1) a b).encard := by
  have h : hits r lam (cons x ω) t a b =
      (if a < t + 1 / r * x.1 ∧ t + 1 / r * x.1 ≤ b ∧ r * x.2 ≤ lam (t + 1 / r * x.1) then {0} else ∅) ∪
        Nat.succ '' hits r lam ω (t + 1 / r * x.1) a b := by
    ext n
    cases n with
    | zero =>
      simp only [hits, mem_ofPred_eq, cand_cons_zero, acc_cons_zero, mem_union, mem_image, Nat.succ_ne_zero, and_false, exists_false, or_false]
      split <;> simp_all
    | succ n =>
      simp only [hits, mem_ofPred_eq, cand_cons_succ, acc_cons_succ, mem_union, mem_image]
      constructor
      · intro h; exact Or.inr ⟨n, h, rfl⟩
      · rintro (h | ⟨m, h, he⟩)
        · split at h <;> simp at h
        · cases he; exact h
  rw [h, encard_union_eq, (Nat.succ_injective).encard_image]
  · congr 1
    split <;> simp
  · rw [disjoint_left]
    rintro n hn ⟨m, -, rfl⟩
    split at hn <;> simp at hn

theorem hits_base (hr : 0 < r) (hp : Pos ω) (h : a ≤ t) : hits r lam ω t a b = hits r lam ω t t b := by
  ext n
  simp only [hits, mem_ofPred_eq]
  have := lt_cand (t := t) hr hp n
  exact ⟨fun h => ⟨this, h.2⟩, fun h' => ⟨h.trans_lt this, h'.2⟩⟩

theorem hits_past (hr : 0 < r) (hp : Pos ω) (h : b ≤ t) : hits r lam ω t a b = ∅ := by
  ext n
  simp only [hits, mem_ofPred_eq, mem_empty_iff_false, iff_false]
  have := lt_cand (t := t) hr hp n
  rintro ⟨-, h2, -⟩
  linarith

theorem cnt_cons_le (hi : Incr a L) (h : t + 1 / r * x.1 ≤ a) :
    Cnt r lam (cons x ω) t a L ↔ Cnt r lam ω (t + 1 / r * x.1) a L := by
  induction L generalizing a with
  | nil => rfl
  | cons y L ih =>
    obtain ⟨s, k⟩ := y
    simp only [Cnt]
    rw [hits_cons, if_neg (fun h' => absurd h'.1 (not_lt.mpr h)), zero_add, ih hi.2 (h.trans hi.1)]

theorem cnt_accept (hr : 0 < r) (hp : Pos ω) (hx : 0 < x.1) (hi : Incr t ((s, k) :: L)) (h : t + 1 / r * x.1 ≤ s)
    (ha : r * x.2 ≤ lam (t + 1 / r * x.1)) :
    Cnt r lam (cons x ω) t t ((s, k) :: L) ↔ ∃ k', k = k' + 1 ∧ Cnt r lam ω (t + 1 / r * x.1) (t + 1 / r * x.1) ((s, k') :: L) := by
  have hlt : t < t + 1 / r * x.1 := by have := mul_pos (one_div_pos.mpr hr) hx; linarith
  simp only [Cnt]
  rw [hits_cons, if_pos ⟨hlt, h, ha⟩, cnt_cons_le hi.2 h, hits_base hr hp hlt.le]
  constructor
  · rintro ⟨h1, h2⟩
    cases k with
    | zero =>
      rw [Nat.cast_zero, add_eq_zero] at h1
      exact absurd h1.1 one_ne_zero
    | succ k' =>
      refine ⟨k', rfl, ?_, h2⟩
      rw [Nat.cast_succ, add_comm] at h1
      exact (ENat.add_left_injective_of_ne_top ENat.one_ne_top) h1
  · rintro ⟨k', rfl, h1, h2⟩
    refine ⟨?_, h2⟩
    rw [h1, Nat.cast_succ, add_comm]

theorem cnt_reject (hr : 0 < r) (hp : Pos ω) (hx : 0 < x.1) (hi : Incr t ((s, k) :: L)) (h : t + 1 / r * x.1 ≤ s)
    (ha : ¬r * x.2 ≤ lam (t + 1 / r * x.1)) :
    Cnt r lam (cons x ω) t t ((s, k) :: L) ↔ Cnt r lam ω (t + 1 / r * x.1) (t + 1 / r * x.1) ((s, k) :: L) := by
  have hlt : t < t + 1 / r * x.1 := by have := mul_pos (one_div_pos.mpr hr) hx; linarith
  simp only [Cnt]
  rw [hits_cons, if_neg (fun h => ha h.2.2), zero_add, cnt_cons_le hi.2 h, hits_base hr hp hlt.le]

theorem cnt_shift {e e' u : ℝ} (h : t + 1 / r * e = s + 1 / r * e') :
    Cnt r lam (cons (e, u) ω) t a L ↔ Cnt r lam (cons (e', u) ω) s a L := by
  induction L generalizing a with
  | nil => rfl
  | cons y L ih =>
    obtain ⟨b, k⟩ := y
    simp only [Cnt]
    rw [hits_cons, hits_cons, ih]
    simp only [h]

theorem cnt_later (hr : 0 < r) (hp : Pos ω) {e u : ℝ} (h : s < t + 1 / r * e) :
    Cnt r lam (cons (e, u) ω) t t ((s, k) :: L) ↔ k = 0 ∧ Cnt r lam (cons (e - r * (s - t), u) ω) s s L := by
  simp only [Cnt]
  rw [hits_cons, if_neg (fun h' => absurd h'.2.1 (not_le.mpr h)), hits_past hr hp h.le]
  rw [cnt_shift (s := s) (e' := e - r * (s - t)) (by field_simp; ring)]
  simp [eq_comm]

end comb

section meas

variable {r : ℝ} {lam : ℝ → ℝ}

theorem measurable_cand (n : ℕ) : Measurable fun p : ℝ × Draws => cand r p.2 p.1 n := by
  induction n with
  | zero =>
    show Measurable fun p : ℝ × Draws => p.1 + 1 / r * (p.2 0).1
    fun_prop
  | succ n ih =>
    show Measurable fun p : ℝ × Draws => cand r p.2 p.1 n + 1 / r * (p.2 (n + 1)).1
    fun_prop

theorem measurableSet_acc (hl : Measurable lam) (n : ℕ) : MeasurableSet {p : ℝ × Draws | acc r lam p.2 p.1 n} := by
  show MeasurableSet {p : ℝ × Draws | r * (p.2 n).2 ≤ lam (cand r p.2 p.1 n)}
  exact measurableSet_le (by fun_prop) (hl.comp (measurable_cand n))

/-- A set of numbers given by measurable conditions has exactly `k` members on a measurable set. -/
theorem measurableSet_encard {X : Type*} [MeasurableSpace X] {S : X → Set ℕ} (h : ∀ n, MeasurableSet {x | n ∈ S x}) (k : ℕ) :
    MeasurableSet {x | (S x).encard = k} := by
  have : {x | (S x).encard = k} = ⋃ F : Finset ℕ, ⋃ _ : F.card = k, ⋂ n, {x | n ∈ S x ↔ n ∈ F} := by
    ext x
    simp only [mem_ofPred_eq, mem_iUnion, mem_iInter, exists_prop]
    constructor
    · intro hx
      have hf : (S x).Finite := finite_of_encard_eq_coe hx
      refine ⟨hf.toFinset, ?_, fun n => by simp⟩
      rw [hf.encard_eq_coe_toFinset_card] at hx
      exact_mod_cast hx
    · rintro ⟨F, hF, hm⟩
      have : S x = (F : Set ℕ) := by ext n; simpa using hm n
      rw [this, encard_coe_eq_coe_finsetCard, hF]
  rw [this]
  refine MeasurableSet.iUnion fun F => MeasurableSet.iUnion fun _ => MeasurableSet.iInter fun n => ?_
  by_cases hn : n ∈ F
  · simpa [hn] using h n
  · have he : {x | n ∈ S x ↔ n ∈ F} = {x | n ∈ S x}ᶜ := by ext x; simp [hn]
    rw [he]
    exact (h n).compl

theorem measurableSet_hits (hl : Measurable lam) {f g : ℝ → ℝ} (hf : Measurable f) (hg : Measurable g) (n : ℕ) :
    MeasurableSet {p : ℝ × Draws | n ∈ hits r lam p.2 p.1 (f p.1) (g p.1)} := by
  refine MeasurableSet.inter (s₁ := {p : ℝ × Draws | f p.1 < cand r p.2 p.1 n}) ?_
    (MeasurableSet.inter (s₁ := {p : ℝ × Draws | cand r p.2 p.1 n ≤ g p.1}) ?_ (measurableSet_acc hl n))
  · exact measurableSet_lt (by fun_prop) (measurable_cand n)
  · exact measurableSet_le (measurable_cand n) (by fun_prop)

theorem measurableSet_cnt (hl : Measurable lam) (L : List (ℝ × ℕ)) {f : ℝ → ℝ} (hf : Measurable f) :
    MeasurableSet {p : ℝ × Draws | Cnt r lam p.2 p.1 (f p.1) L} := by
  induction L generalizing f with
  | nil => simp [Cnt]
  | cons y L ih =>
    obtain ⟨s, k⟩ := y
    exact (measurableSet_encard (measurableSet_hits hl hf measurable_const) k).inter (ih (f := fun _ => s) measurable_const)

theorem measurableSet_pos : MeasurableSet {ω : Draws | Pos ω} := by
  have : {ω : Draws | Pos ω} = ⋂ n, {ω | 0 < (ω n).1} := by ext ω; simp [Pos]
  rw [this]
  exact MeasurableSet.iInter fun n => measurableSet_lt measurable_const (by fun_prop)

/-- All draws are positive and the counts are as listed. -/
def Ev (r : ℝ) (lam : ℝ → ℝ) (t : ℝ) (L : List (ℝ × ℕ)) : Set Draws := {ω | Pos ω ∧ Cnt r lam ω t t L}

theorem measurableSet_ev2 (hl : Measurable lam) (L : List (ℝ × ℕ)) :
    MeasurableSet {p : ℝ × Draws | p.2 ∈ Ev r lam p.1 L} :=
  (measurable_snd measurableSet_pos).inter (measurableSet_cnt hl L measurable_id)

theorem measurableSet_ev (hl : Measurable lam) (t : ℝ) (L : List (ℝ × ℕ)) : MeasurableSet (Ev r lam t L) :=
  measurable_prodMk_left (measurableSet_ev2 hl L)

theorem measurable_cons : Measurable fun p : (ℝ × ℝ) × Draws => cons p.1 p.2 := by
  rw [measurable_pi_iff]
  intro n
  cases n with
  | zero => exact measurable_fst
  | succ n => exact (measurable_pi_apply n).comp measurable_snd

/-- The first draw is independent of the others. -/
theorem map_cons : (drawLaw.prod law).map (fun p => cons p.1 p.2) = law := by
  refine Measure.eq_infinitePi (μ := fun _ : ℕ => drawLaw) fun s u hu => ?_
  rw [Measure.map_apply measurable_cons (MeasurableSet.pi (Finset.countable_toSet s) fun i _ => hu i)]
  set s' : Finset ℕ := s.preimage Nat.succ (Nat.succ_injective.injOn) with hs'
  have he : (fun p : (ℝ × ℝ) × Draws => cons p.1 p.2) ⁻¹' (s : Set ℕ).pi u =
      (if 0 ∈ s then u 0 else univ) ×ˢ (s' : Set ℕ).pi fun n => u (n + 1) := by
    ext ⟨x, ω⟩
    simp only [mem_preimage, mem_pi, Finset.mem_coe, mem_prod, hs', Finset.mem_preimage]
    constructor
    · intro h
      refine ⟨?_, fun n hn => h (n + 1) hn⟩
      split
      · exact h 0 (by assumption)
      · trivial
    · rintro ⟨h0, h1⟩ n hn
      cases n with
      | zero => rw [if_pos hn] at h0; exact h0
      | succ n => exact h1 n hn
  rw [he, Measure.prod_prod, law, Measure.infinitePi_pi _ fun i _ => hu _]
  have hprod : ∏ i ∈ s', drawLaw (u (i + 1)) = ∏ i ∈ s.filter (· ≠ 0), drawLaw (u i) := by
    refine Finset.prod_bij (fun i _ => i + 1) ?_ ?_ ?_ ?_
    · intro i hi
      simp only [hs', Finset.mem_preimage] at hi
      simp [hi]
    · intro i _ j _ h; exact Nat.succ_injective h
    · intro i hi
      simp only [Finset.mem_filter] at hi
      cases i with
      | zero => exact absurd rfl hi.2
      | succ i => exact ⟨i, by simp [hs', hi.1], rfl⟩
    · intro i _; rfl
  rw [hprod]
  by_cases h0 : 0 ∈ s
  · rw [if_pos h0, ← Finset.mul_prod_erase s _ h0]
    congr 1
    refine Finset.prod_congr ?_ fun _ _ => rfl
    ext i; simp [and_comm]
  · rw [if_neg h0, measure_univ, one_mul]
    refine Finset.prod_congr ?_ fun _ _ => rfl
    ext i
    simp only [Finset.mem_filter, and_iff_left_iff_imp]
    rintro hi rfl
    exact h0 hi

/-- Integrating over one pair of draws. -/
theorem lintegral_draw {G : ℝ × ℝ → ℝ≥0∞} (hG : Measurable G) :
    ∫⁻ x, G x ∂drawLaw = ∫⁻ e in Ioi 0, ENNReal.ofReal (exp (-e)) * ∫⁻ u in Ico (0 : ℝ) 1, G (e, u) := by
  have hF : Measurable fun e => ∫⁻ u in Ico (0 : ℝ) 1, G (e, u) := hG.lintegral_prod_right'
  have he : expMeasure 1 = volume.withDensity (exponentialPDF 1) := rfl
  rw [drawLaw, lintegral_prod _ hG.aemeasurable, he,
    lintegral_withDensity_eq_lintegral_mul _ (by exact (measurable_exponentialPDFReal 1).ennreal_ofReal) hF,
    ← lintegral_indicator measurableSet_Ioi]
  refine lintegral_congr_ae ?_
  have h0 : ∀ᵐ e : ℝ, e ≠ 0 := by simp [ae_iff]
  filter_upwards [h0] with e he0
  simp only [Pi.mul_apply, exponentialPDF_eq, indicator, mem_Ioi]
  rcases lt_or_gt_of_ne he0 with h | h
  · simp [not_le.mpr h, not_lt.mpr h.le]
  · simp [h.le, h]

/-- Integrating over the first pair of draws and then over the others. -/
theorem law_first {E : Set Draws} (hE : MeasurableSet E) :
    law E = ∫⁻ e in Ioi 0, ENNReal.ofReal (exp (-e)) * ∫⁻ u in Ico (0 : ℝ) 1, law {ω | cons (e, u) ω ∈ E} := by
  have hm := measurable_cons hE
  rw [← lintegral_draw (G := fun x => law {ω | cons x ω ∈ E}) (measurable_measure_prodMk_left hm)]
  conv_lhs => rw [← map_cons, Measure.map_apply measurable_cons hE, Measure.prod_apply hm]
  rfl

end meas

section step

variable {r : ℝ} {lam : ℝ → ℝ}

/-- The chance that a candidate at a point with acceptance probability `p` is accepted. -/
theorem lintegral_test {p : ℝ} (h0 : 0 ≤ p) (h1 : p ≤ 1) (A B : ℝ≥0∞) :
    ∫⁻ u in Ico (0 : ℝ) 1, (if u ≤ p then A else B) = ENNReal.ofReal p * A + ENNReal.ofReal (1 - p) * B := by
  have he : (fun u : ℝ => if u ≤ p then A else B) = fun u => (Iic p).indicator (fun _ => A) u + (Ioi p).indicator (fun _ => B) u := by
    funext u
    by_cases h : u ≤ p
    · simp [h, not_lt.mpr h]
    · simp [h, not_le.mp h]
  rw [he, Measure.restrict_congr_set Ico_ae_eq_Icc, lintegral_add_left (measurable_const.indicator measurableSet_Iic),
    lintegral_indicator_const measurableSet_Iic, lintegral_indicator_const measurableSet_Ioi,
    Measure.restrict_apply measurableSet_Iic, Measure.restrict_apply measurableSet_Ioi]
  have e1 : Iic p ∩ Icc 0 1 = Icc 0 p := by
    ext u; simp only [mem_inter_iff, mem_Iic, mem_Icc]
    exact ⟨fun h => ⟨h.2.1, h.1⟩, fun h => ⟨h.2, h.1, h.2.trans h1⟩⟩
  have e2 : Ioi p ∩ Icc 0 1 = Ioc p 1 := by
    ext u; simp only [mem_inter_iff, mem_Ioi, mem_Icc, mem_Ioc]
    exact ⟨fun h => ⟨h.1, h.2.2⟩, fun h => ⟨h.1, h0.trans h.1.le, h.2⟩⟩
  rw [e1, e2, volume_Icc, volume_Ioc, sub_zero, mul_comm A, mul_comm B]

/-- The chance of the counts `L`, with the count in the first interval reduced by one. -/
noncomputable def lower (r : ℝ) (lam : ℝ → ℝ) (s : ℝ) (L : List (ℝ × ℕ)) : ℕ → ℝ → ℝ≥0∞
  | 0, _ => 0
  | k + 1, t => law (Ev r lam t ((s, k) :: L))

theorem law_step (h : Rate lam r) {t s : ℝ} (k : ℕ) {L : List (ℝ × ℕ)} (hi : Incr t ((s, k) :: L)) :
    law (Ev r lam t ((s, k) :: L)) =
      (∫⁻ e in Ioc 0 (r * (s - t)), ENNReal.ofReal (exp (-e)) *
        (ENNReal.ofReal (lam (t + 1 / r * e) / r) * lower r lam s L k (t + 1 / r * e) +
          ENNReal.ofReal (1 - lam (t + 1 / r * e) / r) * law (Ev r lam (t + 1 / r * e) ((s, k) :: L)))) +
      if k = 0 then ENNReal.ofReal (exp (-(r * (s - t)))) * law (Ev r lam s L) else 0 := by
  have hr := h.pos
  have hc : 0 ≤ r * (s - t) := mul_nonneg hr.le (sub_nonneg.mpr hi.1)
  rw [law_first (measurableSet_ev h.meas _ _), ← Ioc_union_Ioi_eq_Ioi hc,
    lintegral_union measurableSet_Ioi (by rw [disjoint_left]; intro x hx hx'; exact absurd hx.2 (not_le.mpr hx'))]
  congr 1
  · refine setLIntegral_congr_fun measurableSet_Ioc fun e he => ?_
    have hle : t + 1 / r * e ≤ s := by
      have : 1 / r * e ≤ 1 / r * (r * (s - t)) := by gcongr; exact he.2
      rw [← mul_assoc, one_div_mul_cancel hr.ne', one_mul] at this
      linarith
    rw [← lintegral_test (div_nonneg (h.nonneg _) hr.le) ((div_le_one hr).mpr (h.le _))]
    congr 1
    refine lintegral_congr fun u => ?_
    have hpos : ∀ ω, Pos (cons (e, u) ω) ↔ Pos ω := fun ω => by simp [pos_cons, he.1]
    by_cases ha : u ≤ lam (t + 1 / r * e) / r
    · rw [if_pos ha]
      have ha' : r * u ≤ lam (t + 1 / r * e) := by rwa [le_div_iff₀' hr] at ha
      cases k with
      | zero =>
        have : {ω | cons (e, u) ω ∈ Ev r lam t ((s, 0) :: L)} = ∅ := by
          ext ω
          simp only [Ev, mem_ofPred_eq, mem_empty_iff_false, iff_false, hpos]
          rintro ⟨hp, hcnt⟩
          obtain ⟨k', hk', -⟩ := (cnt_accept hr hp he.1 hi hle ha').mp hcnt
          cases hk'
        rw [this, measure_empty, lower]
      | succ k =>
        have : {ω | cons (e, u) ω ∈ Ev r lam t ((s, k + 1) :: L)} = Ev r lam (t + 1 / r * e) ((s, k) :: L) := by
          ext ω
          simp only [Ev, mem_ofPred_eq, hpos]
          refine and_congr_right fun hp => ?_
          rw [cnt_accept hr hp he.1 hi hle ha']
          constructor
          · rintro ⟨k', hk', hcnt⟩
            cases hk'
            exact hcnt
          · intro hcnt
            exact ⟨k, rfl, hcnt⟩
        rw [this, lower]
    · rw [if_neg ha]
      have ha' : ¬r * u ≤ lam (t + 1 / r * e) := by rwa [le_div_iff₀' hr] at ha
      have : {ω | cons (e, u) ω ∈ Ev r lam t ((s, k) :: L)} = Ev r lam (t + 1 / r * e) ((s, k) :: L) := by
        ext ω
        simp only [Ev, mem_ofPred_eq, hpos]
        exact and_congr_right fun hp => cnt_reject hr hp he.1 hi hle ha'
      rw [this]
  · have hset : ∀ e ∈ Ioi (r * (s - t)), ∀ u, {ω | cons (e, u) ω ∈ Ev r lam t ((s, k) :: L)} =
        if k = 0 then {ω | cons (e - r * (s - t), u) ω ∈ Ev r lam s L} else ∅ := by
      intro e he u
      have he0 : 0 < e := lt_of_le_of_lt hc he
      have hgt : s < t + 1 / r * e := by
        have : 1 / r * (r * (s - t)) < 1 / r * e := by
          have := one_div_pos.mpr hr
          gcongr
          exact he
        rw [← mul_assoc, one_div_mul_cancel hr.ne', one_mul] at this
        linarith
      ext ω
      have he' : 0 < e - r * (s - t) := sub_pos.mpr he
      split
      · simp only [Ev, mem_ofPred_eq, pos_cons, he0, he', true_and]
        refine and_congr_right fun hp => ?_
        rw [cnt_later hr hp hgt]
        simp [*]
      · simp only [Ev, mem_ofPred_eq, pos_cons, he0, true_and, mem_empty_iff_false, iff_false]
        rintro ⟨hp, hcnt⟩
        exact absurd ((cnt_later hr hp hgt).mp hcnt).1 (by assumption)
    rw [setLIntegral_congr_fun measurableSet_Ioi fun e he => by
      show _ = ENNReal.ofReal (exp (-e)) * ∫⁻ u in Ico (0 : ℝ) 1, law (if k = 0 then {ω | cons (e - r * (s - t), u) ω ∈ Ev r lam s L} else ∅)
      simp only [hset e he]]
    split
    · rw [law_first (measurableSet_ev h.meas s L)]
      set H : ℝ → ℝ≥0∞ := fun e => ENNReal.ofReal (exp (-e)) * ∫⁻ u in Ico (0 : ℝ) 1, law {ω | cons (e, u) ω ∈ Ev r lam s L} with hH
      have hm : Measurable H := by
        refine (by fun_prop : Measurable fun e : ℝ => ENNReal.ofReal (exp (-e))).mul ?_
        exact Measurable.lintegral_prod_right' (f := fun x : ℝ × ℝ => law {ω | cons x ω ∈ Ev r lam s L})
          (measurable_measure_prodMk_left (measurable_cons (measurableSet_ev h.meas s L)))
      rw [← lintegral_const_mul _ hm, ← lintegral_indicator measurableSet_Ioi, ← lintegral_indicator measurableSet_Ioi,
        ← lintegral_sub_right_eq_self ((Ioi (0 : ℝ)).indicator _) (r * (s - t))]
      refine lintegral_congr fun e => ?_
      by_cases he : e ∈ Ioi (r * (s - t))
      · have he' : e - r * (s - t) ∈ Ioi (0 : ℝ) := mem_Ioi.mpr (sub_pos.mpr (mem_Ioi.mp he))
        rw [indicator_of_mem he, indicator_of_mem he', hH]
        simp only
        rw [← mul_assoc, ← ENNReal.ofReal_mul (exp_pos _).le, ← exp_add]
        congr 3
        ring
      · have he' : e - r * (s - t) ∉ Ioi (0 : ℝ) := fun h' => he (mem_Ioi.mpr (sub_pos.mp (mem_Ioi.mp h')))
        rw [indicator_of_notMem he, indicator_of_notMem he']
    · simp

theorem law_pos : law {ω | Pos ω} = 1 := by
  have h : ∀ᵐ ω ∂law, Pos ω := by
    rw [show (fun ω : Draws => Pos ω) = fun ω => ∀ n, 0 < (ω n).1 from rfl]
    rw [ae_all_iff]
    intro n
    have hx : ∀ᵐ x ∂drawLaw, 0 < x.1 := by
      rw [ae_iff]
      have hm : MeasurableSet {x : ℝ × ℝ | ¬0 < x.1} := (measurableSet_lt measurable_const measurable_fst).compl
      rw [← lintegral_indicator_one hm, lintegral_draw (measurable_one.indicator hm)]
      refine (setLIntegral_congr_fun measurableSet_Ioi fun e he => ?_).trans (lintegral_zero)
      have : ∀ u : ℝ, {x : ℝ × ℝ | ¬0 < x.1}.indicator (1 : ℝ × ℝ → ℝ≥0∞) (e, u) = 0 := fun u =>
        indicator_of_notMem (by simpa using mem_Ioi.mp he) _
      simp only [this, lintegral_zero, mul_zero]
    exact (measurePreserving_eval_infinitePi (fun _ : ℕ => drawLaw) n).quasiMeasurePreserving.ae hx
  rw [← prob_compl_eq_zero_iff measurableSet_pos]
  exact h

/-- The product of Poisson probabilities for consecutive intervals. -/
noncomputable def poisProd (lam : ℝ → ℝ) : ℝ → List (ℝ × ℕ) → ℝ
  | _, [] => 1
  | a, (s, k) :: L => pois k (∫ u in a..s, lam u) * poisProd lam s L

/-- The counts in consecutive intervals are independent Poisson variables. -/
theorem law_ev (h : Rate lam r) (t : ℝ) (L : List (ℝ × ℕ)) (hi : Incr t L) : (law (Ev r lam t L)).toReal = poisProd lam t L := by
  induction L generalizing t with
  | nil =>
    have : Ev r lam t [] = {ω | Pos ω} := by ext ω; simp [Ev, Cnt]
    rw [this, law_pos]
    rfl
  | cons y L ih =>
    obtain ⟨s, k⟩ := y
    have hm : ∀ k, Measurable fun t => law (Ev r lam t ((s, k) :: L)) := fun k =>
      measurable_measure_prodMk_left (measurableSet_ev2 h.meas ((s, k) :: L))
    have hml : ∀ k, Measurable (lower r lam s L k) := fun k => by
      cases k with
      | zero => exact measurable_const
      | succ k => exact hm k
    have hl1 : ∀ k t, lower r lam s L k t ≤ 1 := fun k t => by
      cases k with
      | zero => exact zero_le_one
      | succ k => exact prob_le_one
    have hr := h.pos
    have := unique_solution h (q := fun k t => (law (Ev r lam t ((s, k) :: L))).toReal) (s := s) (C := (law (Ev r lam s L)).toReal)
      (fun k => (hm k).ennreal_toReal) (fun k t => by
        rw [abs_of_nonneg ENNReal.toReal_nonneg]
        exact ENNReal.toReal_le_of_le_ofReal zero_le_one (by rw [ENNReal.ofReal_one]; exact prob_le_one)) ?_ k t hi.1
    · rw [this, ih s hi.2, poisProd, mul_comm]
      rfl
    · intro k t hts
      have hi' : Incr t ((s, k) :: L) := ⟨hts, hi.2⟩
      rw [law_step h k hi']
      set F : ℝ → ℝ≥0∞ := fun x => ENNReal.ofReal (lam x / r) * lower r lam s L k x + ENNReal.ofReal (1 - lam x / r) * law (Ev r lam x ((s, k) :: L)) with hF
      have hFm : Measurable F := by
        have := h.meas
        exact ((by fun_prop : Measurable fun x => ENNReal.ofReal (lam x / r)).mul (hml k)).add
          ((by fun_prop : Measurable fun x => ENNReal.ofReal (1 - lam x / r)).mul (hm k))
      have hFfin : ∀ x, F x < ∞ := fun x => by
        refine ENNReal.add_lt_top.mpr ⟨ENNReal.mul_lt_top ENNReal.ofReal_lt_top ((hl1 k x).trans_lt ENNReal.one_lt_top), ?_⟩
        exact ENNReal.mul_lt_top ENNReal.ofReal_lt_top (prob_le_one.trans_lt ENNReal.one_lt_top)
      have hGm : Measurable fun e => ENNReal.ofReal (exp (-e)) * F (t + 1 / r * e) :=
        (by fun_prop : Measurable fun e : ℝ => ENNReal.ofReal (exp (-e))).mul (hFm.comp (by fun_prop))
      have hint := integral_toReal (μ := volume.restrict (Ioc 0 (r * (s - t)))) (f := fun e => ENNReal.ofReal (exp (-e)) * F (t + 1 / r * e))
        hGm.aemeasurable (Filter.Eventually.of_forall fun e => ENNReal.mul_lt_top ENNReal.ofReal_lt_top (hFfin _))
      have hc : 0 ≤ r * (s - t) := mul_nonneg hr.le (sub_nonneg.mpr hts)
      have hne : ∫⁻ e in Ioc 0 (r * (s - t)), ENNReal.ofReal (exp (-e)) * F (t + 1 / r * e) ≠ ∞ := by
        have hle := law_step h k hi'
        intro htop
        rw [htop, top_add] at hle
        exact (measure_ne_top law _) hle
      rw [ENNReal.toReal_add hne (by split <;> finiteness), ← hint, ← intervalIntegral.integral_of_le hc, add_comm]
      congr 1
      · split
        · rw [ENNReal.toReal_mul, ENNReal.toReal_ofReal (exp_pos _).le, mul_comm]
        · rfl
      · have hcv := intervalIntegral.integral_comp_add_div (a := 0) (b := r * (s - t))
          (kern lam r t (prevOf (fun k t => (law (Ev r lam t ((s, k) :: L))).toReal) k) fun t => (law (Ev r lam t ((s, k) :: L))).toReal) hr.ne' t
        rw [zero_div, add_zero, mul_div_cancel_left₀ _ hr.ne', add_sub_cancel] at hcv
        have hcv' := congrArg (fun z => r⁻¹ * z) hcv
        simp only [smul_eq_mul] at hcv'
        rw [← mul_assoc, inv_mul_cancel₀ hr.ne', one_mul] at hcv'
        rw [← hcv', ← intervalIntegral.integral_const_mul]
        refine intervalIntegral.integral_congr fun e _ => ?_
        have hp0 : 0 ≤ lam (t + e / r) / r := div_nonneg (h.nonneg _) hr.le
        have hp1 : 0 ≤ 1 - lam (t + e / r) / r := sub_nonneg.mpr ((div_le_one hr).mpr (h.le _))
        have hpl : (lower r lam s L k (t + e / r)).toReal = prevOf (fun k t => (law (Ev r lam t ((s, k) :: L))).toReal) k (t + e / r) := by
          cases k <;> rfl
        simp only [kern, hF]
        rw [show t + 1 / r * e = t + e / r by ring, ENNReal.toReal_mul, ENNReal.toReal_ofReal (exp_pos _).le,
          ENNReal.toReal_add (ENNReal.mul_ne_top ENNReal.ofReal_ne_top ((hl1 k _).trans_lt ENNReal.one_lt_top).ne)
            (ENNReal.mul_ne_top ENNReal.ofReal_ne_top (measure_ne_top _ _)),
          ENNReal.toReal_mul, ENNReal.toReal_mul, ENNReal.toReal_ofReal hp0, ENNReal.toReal_ofReal hp1, hpl]
        rw [show r * (t + e / r - t) = e by field_simp; ring]
        field_simp

end step

end Verif.ThinSpec
