import Verif.DrawMachine
import Verif.Props.GraphGen2

/-!
# Property C108: the law of the types that `set_types_random` gives

`ω 0`, `ω 1`, ... are the uniform draws; under `unifLaw` they are independent and uniform on `[0, 1)`. Those for the edges
that are not loops come first (graph_generation.py lines 304-321).
-/

namespace Verif.GenSpec

open MeasureTheory Set
open Verif.UFSpec Verif.GSpec
open scoped ENNReal

theorem draws_in : ∀ᵐ ω ∂unifLaw, ∀ i, 0 ≤ ω i ∧ ω i < 1 := by
  rw [ae_all_iff]
  intro i
  have h0 : ∀ᵐ u ∂unif01, 0 ≤ u ∧ u < 1 := by
    unfold unif01
    rw [ae_restrict_iff' measurableSet_Ico]
    exact Filter.Eventually.of_forall fun u hu => ⟨hu.1, hu.2⟩
  exact (measurePreserving_eval_infinitePi (fun _ : ℕ => unif01) i).quasiMeasurePreserving.ae h0

theorem share_mono {props : Dict Int ℝ} (h : ∀ p ∈ props, 0 ≤ p.2) : Monotone (share props) := by
  refine monotone_nat_of_le_succ fun k => ?_
  unfold share
  rw [List.map_take, List.map_take]
  refine sum_take_le (fun x hx => ?_) k
  obtain ⟨p, hp, rfl⟩ := List.mem_map.mp hx
  exact h p hp

theorem share_succ {props : Dict Int ℝ} {k : Nat} {q : Int × ℝ} (h : props[k]? = some q) :
    share props (k + 1) = share props k + q.2 := by
  obtain ⟨h1, h2⟩ := List.getElem?_eq_some_iff.mp h
  unfold share
  rw [List.take_succ_eq_append_getElem h1, List.map_append, List.sum_append, h2]
  simp

/-- A draw stands for one type. -/
theorem Drawn.unique {props : Dict Int ℝ} (h : ∀ p ∈ props, 0 ≤ p.2) {u : ℝ} {t t' : Int} (h1 : Drawn props u t)
    (h2 : Drawn props u t') : t = t' := by
  obtain ⟨k, p, e1, a1, b1⟩ := h1
  obtain ⟨k', p', e2, a2, b2⟩ := h2
  have hm := share_mono h
  have hkk : k = k' := by
    rcases lt_trichotomy k k' with hlt | heq | hlt
    · exact absurd (b1.trans_le (hm (Nat.succ_le_of_lt hlt))) (not_lt.mpr a2)
    · exact heq
    · exact absurd (b2.trans_le (hm (Nat.succ_le_of_lt hlt))) (not_lt.mpr a1)
  subst hkk
  rw [e1] at e2
  simp only [Option.some.injEq, Prod.mk.injEq] at e2
  exact e2.1

/-- The proportion of type `t`. -/
noncomputable def chance (props : Dict Int ℝ) (t : Int) : ℝ := (Dict.get? props t).getD 0 / (props.map Prod.snd).sum

theorem share_nonneg {props : Dict Int ℝ} (h : ∀ p ∈ props, 0 ≤ p.2) (k : Nat) : 0 ≤ share props k := by
  have := share_mono h (Nat.zero_le k)
  simpa [share] using this

theorem share_le {props : Dict Int ℝ} (h : ∀ p ∈ props, 0 ≤ p.2) (k : Nat) : share props k ≤ (props.map Prod.snd).sum := by
  have := share_mono h (Nat.le_max_left k props.length)
  refine this.trans (le_of_eq ?_)
  unfold share
  rw [List.take_of_length_le (Nat.le_max_right _ _)]

/-- The chance that a draw stands for type `t`. -/
theorem drawn_chance {props : Dict Int ℝ} (hok : Dict.Ok props) (h : ∀ p ∈ props, 0 ≤ p.2)
    (hs : 0 < (props.map Prod.snd).sum) (t : Int) :
    MeasurableSet {u | Drawn props u t} ∧ unif01 {u | Drawn props u t} = ENNReal.ofReal (chance props t) := by
  unfold chance
  set S := (props.map Prod.snd).sum with hS
  cases hg : Dict.get? props t with
  | none =>
    have : {u | Drawn props u t} = ∅ := by
      ext u
      simp only [mem_ofPred_eq, mem_empty_iff_false, iff_false]
      rintro ⟨k, p, e, -⟩
      exact Dict.get?_eq_none.mp hg (List.mem_map.mpr ⟨_, List.mem_of_getElem? e, rfl⟩)
    rw [this]
    simp
  | some p =>
    have hmem : (t, p) ∈ props := Dict.mem_of_get? hg
    obtain ⟨k, hk⟩ := List.mem_iff_getElem?.mp hmem
    have hset : {u | Drawn props u t} = Ico (share props k / S) (share props (k + 1) / S) := by
      ext u
      simp only [mem_ofPred_eq, mem_Ico, div_le_iff₀ hs, lt_div_iff₀ hs]
      constructor
      · rintro ⟨k', p', e, a, b⟩
        have : k' = k := by
          obtain ⟨i1, i2⟩ := List.getElem?_eq_some_iff.mp e
          obtain ⟨j1, j2⟩ := List.getElem?_eq_some_iff.mp hk
          have hnd : (props.map Prod.fst).Nodup := hok
          refine (hnd.getElem_inj_iff (hi := by simpa using i1) (hj := by simpa using j1)).mp ?_
          simp [i2, j2]
        subst this
        exact ⟨a, b⟩
      · rintro ⟨a, b⟩; exact ⟨k, p, hk, a, b⟩
    rw [hset]
    refine ⟨measurableSet_Ico, ?_⟩
    unfold unif01
    rw [Measure.restrict_apply measurableSet_Ico, inter_eq_self_of_subset_left, Real.volume_Ico, share_succ hk]
    · congr 1
      simp only [Option.getD_some]
      ring
    · intro u hu
      refine ⟨(div_nonneg (share_nonneg h k) hs.le).trans hu.1, hu.2.trans_le ?_⟩
      rw [div_le_one hs]
      exact share_le h _

/-- Different draws are independent. -/
theorem draws_prod {E : Type*} [DecidableEq E] (F : Finset E) (pos : E → ℕ) (hinj : Set.InjOn pos F) (I : E → Set ℝ)
    (hI : ∀ e ∈ F, MeasurableSet (I e)) : unifLaw {ω | ∀ e ∈ F, ω (pos e) ∈ I e} = ∏ e ∈ F, unif01 (I e) := by
  let t : ℕ → Set ℝ := fun i => {u | ∀ e ∈ F, pos e = i → u ∈ I e}
  have ht : ∀ e ∈ F, t (pos e) = I e := by
    intro e he
    ext u
    constructor
    · intro h; exact h e he rfl
    · intro h e' he' hp
      rw [hinj he' he hp]; exact h
  have hset : {ω : ℕ → ℝ | ∀ e ∈ F, ω (pos e) ∈ I e} = Set.pi (F.image pos) t := by
    ext ω
    simp only [mem_ofPred_eq, Set.mem_pi, Finset.coe_image, mem_image, Finset.mem_coe, forall_exists_index, and_imp]
    constructor
    · rintro h _ e he rfl
      rw [ht e he]; exact h e he
    · intro h e he
      rw [← ht e he]; exact h _ e he rfl
  rw [hset, unifLaw, Measure.infinitePi_pi, Finset.prod_image hinj]
  · exact Finset.prod_congr rfl fun e he => by rw [ht e he]
  · intro i hi
    obtain ⟨e, he, rfl⟩ := Finset.mem_image.mp hi
    rw [ht e he]; exact hI e he

/-- Draws are independent of what only depends on earlier ones. -/
theorem indep_draws (A : Set (ℕ → ℝ)) (hA : MeasurableSet A) (c : ℕ) (hdep : ∀ ω ω', (∀ i < c, ω' i = ω i) → ω ∈ A → ω' ∈ A)
    {E : Type*} [DecidableEq E] (F : Finset E) (pos : E → ℕ) (hinj : Set.InjOn pos F) (hpos : ∀ e ∈ F, c ≤ pos e)
    (I : E → Set ℝ) (hI : ∀ e ∈ F, MeasurableSet (I e)) :
    unifLaw (A ∩ {ω | ∀ e ∈ F, ω (pos e) ∈ I e}) = unifLaw A * ∏ e ∈ F, unif01 (I e) := by
  have hind : ProbabilityTheory.iIndepFun (fun (i : ℕ) (ω : ℕ → ℝ) => ω i) unifLaw :=
    ProbabilityTheory.iIndepFun_infinitePi (P := fun _ : ℕ => unif01) (X := fun _ x => x) fun _ => measurable_id
  have h2 := hind.indepFun_finset (Finset.range c) (F.image pos) (by
    rw [Finset.disjoint_left]
    intro i hi hi'
    obtain ⟨e, he, rfl⟩ := Finset.mem_image.mp hi'
    have := hpos e he
    simp only [Finset.mem_range] at hi
    omega) fun i => measurable_pi_apply i
  let ext : ((i : Finset.range c) → ℝ) → ℕ → ℝ := fun x i => if h : i ∈ Finset.range c then x ⟨i, h⟩ else 0
  have hext : Measurable ext := by
    refine measurable_pi_lambda _ fun i => ?_
    by_cases h : i ∈ Finset.range c
    · simp only [ext, h, dif_pos]; exact measurable_pi_apply _
    · simp only [ext, h]; exact measurable_const
  have h3 := h2.measure_inter_preimage_eq_mul (ext ⁻¹' A)
    (⋂ e : F, (fun x => x ⟨pos e.1, Finset.mem_image_of_mem _ e.2⟩) ⁻¹' I e.1) (hext hA)
    (MeasurableSet.iInter fun e => measurableSet_preimage
      (measurable_pi_apply (X := fun _ : (F.image pos : Finset ℕ) => ℝ) ⟨pos e.1, Finset.mem_image_of_mem _ e.2⟩) (hI e.1 e.2))
  have e1 : (fun (ω : ℕ → ℝ) (i : Finset.range c) => ω i) ⁻¹' (ext ⁻¹' A) = A := by
    ext ω
    simp only [mem_preimage]
    have : ∀ i < c, ext (fun i : Finset.range c => ω i) i = ω i := fun i hi => by simp [ext, hi]
    exact ⟨hdep _ _ fun i hi => (this i hi).symm, hdep _ _ this⟩
  have e2 : (fun (ω : ℕ → ℝ) (i : (F.image pos : Finset ℕ)) => ω i) ⁻¹'
      (⋂ e : F, (fun x => x ⟨pos e.1, Finset.mem_image_of_mem _ e.2⟩) ⁻¹' I e.1) = {ω | ∀ e ∈ F, ω (pos e) ∈ I e} := by
    ext ω
    simp
  rw [e1, e2] at h3
  rw [h3, draws_prod F pos hinj I hI]

variable {A : Type*} [EmptyCollection A]

/-- Which draw decides on the type of an edge. -/
def drawOf (g : QGraph A) (e : Nat × Nat) : Nat :=
  if e.1 = e.2 then (nonLoops g).length + (onlyLoops g).idxOf e else (nonLoops g).idxOf e

omit [EmptyCollection A] in
theorem drawOf_inj (g : QGraph A) : Set.InjOn (drawOf g) {e | e ∈ g.adj.edges} := by
  have hmem : ∀ e, e ∈ g.adj.edges → (e.1 = e.2 → e ∈ onlyLoops g) ∧ (e.1 ≠ e.2 → e ∈ nonLoops g) :=
    fun e he => ⟨fun h => by simp [onlyLoops, he, h], fun h => by simp [nonLoops, he, h]⟩
  intro e he e' he' h
  unfold drawOf at h
  split at h <;> split at h
  · rename_i h1 h2
    exact (List.idxOf_inj ((hmem e he).1 h1)).mp (by omega)
  · rename_i h1 h2
    have := List.idxOf_lt_length_iff.mpr ((hmem e' he').2 h2)
    omega
  · rename_i h1 h2
    have := List.idxOf_lt_length_iff.mpr ((hmem e he).2 h1)
    omega
  · rename_i h1 h2
    exact (List.idxOf_inj ((hmem e he).2 h1)).mp h

/-- The edges of `F` get the types `τ`. -/
def Typed (g : QGraph A) (F : Finset (Nat × Nat)) (τ : Nat × Nat → Int) : Prop :=
  ∀ e ∈ F, ∃ x, g.adj.look e.1 e.2 = some x ∧ x.etype = some (τ e)

theorem typed_iff {isOne sumOk : ℝ → Bool} (hone : ∀ x, isOne x = true → 0 < x) {g : QGraph A} (hg : Built g)
    {props lprops : Dict Int ℝ} (h1 : isOne (props.map Prod.snd).sum = true)
    (h2 : isOne (lprops.map Prod.snd).sum = true) (h3 : sumOk (props.map Prod.snd).sum = true)
    (h4 : sumOk (lprops.map Prod.snd).sum = true) (h5 : ∀ p ∈ props, 0 ≤ p.2) (h6 : ∀ p ∈ lprops, 0 ≤ p.2)
    (F : Finset (Nat × Nat)) (hF : ∀ e ∈ F, e ∈ g.adj.edges) (τ : Nat × Nat → Int) (ω : ℕ → ℝ)
    (hω : ∀ i, 0 ≤ ω i ∧ ω i < 1) :
    (∃ g', setTypesRandom isOne sumOk g props lprops ω (fun i => ω ((nonLoops g).length + i)) = .ok g' ∧ Typed g' F τ) ↔
      ∀ e ∈ F, Drawn (if e.1 = e.2 then lprops else props) (ω (drawOf g e)) (τ e) := by
  obtain ⟨g', e1, -, e2, e3⟩ := C64_accepted (lrnd := fun i => ω ((nonLoops g).length + i)) hone hg hω
    (fun i => hω _) h1 h2 h3 h4 h5 h6
  have key : ∀ e ∈ F, ∃ x t, g'.adj.look e.1 e.2 = some x ∧ x.etype = some t ∧
      Drawn (if e.1 = e.2 then lprops else props) (ω (drawOf g e)) t := by
    rintro ⟨u, v⟩ he
    have hmem := hF _ he
    unfold drawOf
    by_cases huv : u = v
    · subst huv
      simp only [if_true]
      refine e3 _ u (List.getElem?_idxOf ?_)
      simp [onlyLoops, hmem]
    · simp only [huv, if_false]
      refine e2 _ u v (List.getElem?_idxOf ?_)
      simp [nonLoops, hmem, huv]
  constructor
  · rintro ⟨g2, k1, k2⟩ e he
    rw [e1] at k1
    simp only [Except.ok.injEq] at k1
    subst k1
    obtain ⟨x, t, q1, q2, q3⟩ := key e he
    obtain ⟨y, r1, r2⟩ := k2 e he
    rw [q1] at r1
    simp only [Option.some.injEq] at r1
    subst r1
    rw [q2] at r2
    simp only [Option.some.injEq] at r2
    rwa [r2] at q3
  · intro h
    refine ⟨g', e1, fun e he => ?_⟩
    obtain ⟨x, t, q1, q2, q3⟩ := key e he
    refine ⟨x, q1, ?_⟩
    rw [q2, Drawn.unique (by split <;> assumption) q3 (h e he)]

/-- C108: if the proportions are accepted, the types of the edges are independent, and an edge has type `t` with the
proportion given for `t`, among those for loops if it is a loop. -/
theorem C108_types_law {isOne sumOk : ℝ → Bool} (hone : ∀ x, isOne x = true → 0 < x) {g : QGraph A} (hg : Built g)
    {props lprops : Dict Int ℝ} (hd : Dict.Ok props) (hld : Dict.Ok lprops)
    (h1 : isOne (props.map Prod.snd).sum = true)
    (h2 : isOne (lprops.map Prod.snd).sum = true) (h3 : sumOk (props.map Prod.snd).sum = true)
    (h4 : sumOk (lprops.map Prod.snd).sum = true) (h5 : ∀ p ∈ props, 0 ≤ p.2) (h6 : ∀ p ∈ lprops, 0 ≤ p.2)
    (F : Finset (Nat × Nat)) (hF : ∀ e ∈ F, e ∈ g.adj.edges) (τ : Nat × Nat → Int) :
    unifLaw {ω | ∃ g', setTypesRandom isOne sumOk g props lprops ω (fun i => ω ((nonLoops g).length + i)) = .ok g' ∧
        Typed g' F τ} =
      ∏ e ∈ F, ENNReal.ofReal (chance (if e.1 = e.2 then lprops else props) (τ e)) := by
  have hc : ∀ e : Nat × Nat, MeasurableSet {u | Drawn (if e.1 = e.2 then lprops else props) u (τ e)} ∧
      unif01 {u | Drawn (if e.1 = e.2 then lprops else props) u (τ e)} =
        ENNReal.ofReal (chance (if e.1 = e.2 then lprops else props) (τ e)) := by
    intro e
    split
    · exact drawn_chance hld h6 (hone _ h2) _
    · exact drawn_chance hd h5 (hone _ h1) _
  rw [← Finset.prod_congr rfl fun e _ => (hc e).2,
    ← draws_prod F (drawOf g) (fun e he e' he' h => drawOf_inj g (hF e he) (hF e' he') h) _ fun e _ => (hc e).1]
  refine measure_congr ?_
  filter_upwards [draws_in] with ω hω
  exact propext (typed_iff hone hg h1 h2 h3 h4 h5 h6 F hF τ ω hω)

/-! ## `generate_random_graph` -/

theorem addRandomLoops_congr {K K' : Type*} [LinearOrder K] [LinearOrder K'] (p : K) (p' : K') (rnd : Nat → K)
    (rnd' : Nat → K') (vs : List Nat) (h : ∀ v ∈ vs, rnd v < p ↔ rnd' v < p') (g : QGraph A) :
    addRandomLoops p rnd vs g = addRandomLoops p' rnd' vs g := by
  induction vs generalizing g with
  | nil => rfl
  | cons v vs ih =>
    unfold addRandomLoops
    rw [ih fun w hw => h w (List.mem_cons_of_mem _ hw)]
    simp only [h v (List.mem_cons_self ..)]

/-- What a draw has to be: below `p` or not for the loop of a vertex, standing for its type for an edge. -/
def Want (p : ℝ) (L : Finset Nat) (props lprops : Dict Int ℝ) (τ : Nat × Nat → Int) : Nat ⊕ (Nat × Nat) → Set ℝ :=
  Sum.elim (fun v => if v ∈ L then Iio p else Ici p) fun e => {u | Drawn (if e.1 = e.2 then lprops else props) u (τ e)}

theorem want_law {isOne : ℝ → Bool} (hone : ∀ x, isOne x = true → 0 < x) {p : ℝ} (hp0 : 0 ≤ p) (hp1 : p ≤ 1)
    {props lprops : Dict Int ℝ} (hd : Dict.Ok props) (hld : Dict.Ok lprops)
    (h1 : isOne (props.map Prod.snd).sum = true) (h2 : isOne (lprops.map Prod.snd).sum = true)
    (h5 : ∀ p ∈ props, 0 ≤ p.2) (h6 : ∀ p ∈ lprops, 0 ≤ p.2) (n : Nat) (L : Finset Nat) (F : Finset (Nat × Nat))
    (τ : Nat × Nat → Int) :
    (∀ e, MeasurableSet (Want p L props lprops τ e)) ∧
      ∏ e ∈ (Finset.range n).disjSum F, unif01 (Want p L props lprops τ e) =
      (∏ v ∈ Finset.range n, if v ∈ L then ENNReal.ofReal p else ENNReal.ofReal (1 - p)) *
        ∏ e ∈ F, ENNReal.ofReal (chance (if e.1 = e.2 then lprops else props) (τ e)) := by
  have hc : ∀ e : Nat × Nat, MeasurableSet {u | Drawn (if e.1 = e.2 then lprops else props) u (τ e)} ∧
      unif01 {u | Drawn (if e.1 = e.2 then lprops else props) u (τ e)} =
        ENNReal.ofReal (chance (if e.1 = e.2 then lprops else props) (τ e)) := by
    intro e
    split
    · exact drawn_chance hld h6 (hone _ h2) _
    · exact drawn_chance hd h5 (hone _ h1) _
  have hl : ∀ v : Nat, MeasurableSet (if v ∈ L then Iio p else Ici p) ∧
      unif01 (if v ∈ L then Iio p else Ici p) = if v ∈ L then ENNReal.ofReal p else ENNReal.ofReal (1 - p) := by
    intro v
    unfold unif01
    split
    · refine ⟨measurableSet_Iio, ?_⟩
      rw [Measure.restrict_apply measurableSet_Iio, inter_comm, Ico_inter_Iio, min_eq_right hp1, Real.volume_Ico, sub_zero]
    · refine ⟨measurableSet_Ici, ?_⟩
      rw [Measure.restrict_apply measurableSet_Ici, inter_comm, Ico_inter_Ici, max_eq_right hp0, Real.volume_Ico]
  refine ⟨?_, ?_⟩
  · rintro (v | e)
    · exact (hl v).1
    · exact (hc e).1
  · rw [Finset.prod_disjSum]
    simp only [Want, Sum.elim_inl, Sum.elim_inr]
    rw [Finset.prod_congr rfl fun v _ => (hl v).2, Finset.prod_congr rfl fun e _ => (hc e).2]

/-- Which draws decide on the loops and types. -/
theorem random_draws {D : Type*} [LinearOrder D] {n : Nat} (hn : 2 ≤ n) {d : Nat → Nat → D}
    {isOne sumOk : ℝ → Bool} (hone : ∀ x, isOne x = true → 0 < x) {p : ℝ} {props lprops : Dict Int ℝ}
    (h1 : isOne (props.map Prod.snd).sum = true)
    (h2 : isOne (lprops.map Prod.snd).sum = true) (h3 : sumOk (props.map Prod.snd).sum = true)
    (h4 : sumOk (lprops.map Prod.snd).sum = true) (h5 : ∀ p ∈ props, 0 ≤ p.2) (h6 : ∀ p ∈ lprops, 0 ≤ p.2)
    {g0 : QGraph A} (hg0 : minimalGraph n d = .ok g0) (L : Finset Nat) (F : Finset (Nat × Nat))
    (hF : ∀ e ∈ F, (e.1 ≠ e.2 ∧ e ∈ g0.adj.edges) ∨ (e.1 = e.2 ∧ e.1 < n ∧ e.1 ∈ L)) (τ : Nat × Nat → Int) :
    ∃ pos : Nat ⊕ (Nat × Nat) → ℕ, Set.InjOn pos ((Finset.range n).disjSum F) ∧
      ∀ ω : ℕ → ℝ, (∀ i, 0 ≤ ω i ∧ ω i < 1) → ((∃ g : QGraph A, setTypesRandom isOne sumOk
          (addRandomLoops p (fun v => ω ((Dict.keys g0.adj).idxOf v)) (Dict.keys g0.adj) g0) props lprops
          (fun i => ω (n + i)) (fun i => ω (n + ((nonLoops (addRandomLoops p
            (fun v => ω ((Dict.keys g0.adj).idxOf v)) (Dict.keys g0.adj) g0)).length + i))) = .ok g ∧
          (∀ v < n, (v, v) ∈ g.adj.edges ↔ v ∈ L) ∧ Typed g F τ) ↔
        ∀ e ∈ (Finset.range n).disjSum F, ω (pos e) ∈ Want p L props lprops τ e) := by
  obtain ⟨g0', hg0', hb0, hv0, hs0, -⟩ := C63_minimal (A := A) hn d
  rw [hg0] at hg0'
  simp only [Except.ok.injEq] at hg0'
  subst hg0'
  have hok0 := (Numbered.of_built hb0).ok
  set keys := Dict.keys g0.adj with hkeys
  have hknd : keys.Nodup := hok0.1
  have hlen : keys.length = n := by
    have : keys.Perm (List.range n) := (List.perm_ext_iff_of_nodup hknd List.nodup_range).mpr fun v => by
      rw [hv0, List.mem_range]
    rw [this.length_eq, List.length_range]
  -- the graph with the loops in `L`
  set gL := addRandomLoops (1 : ℕ) (fun v => if v ∈ L then 0 else 1) keys g0 with hgL
  have hL := addRandomLoops_spec (1 : ℕ) (fun v => if v ∈ L then 0 else 1) keys hb0 (fun _ h => h)
  rw [← hgL] at hL
  have hokL := (Numbered.of_built hL.built).ok
  have hFL : ∀ e ∈ F, e ∈ gL.adj.edges := by
    rintro ⟨u, v⟩ he
    rw [Adj.mem_edges hokL, hL.look]
    rcases hF _ he with ⟨q1, q2⟩ | ⟨q1, q2, q3⟩
    · rw [Adj.mem_edges hok0] at q2
      simpa [q1] using q2
    · simp only at q1 q2 q3
      subst q1
      have : u ∈ keys := (hv0 u).mpr q2
      cases g0.adj.look u u <;> simp [this, q3]
  let pos : Nat ⊕ (Nat × Nat) → ℕ := Sum.elim keys.idxOf fun e => n + drawOf gL e
  let G : Finset (Nat ⊕ (Nat × Nat)) := (Finset.range n).disjSum F
  have hposlt : ∀ v < n, keys.idxOf v < n := fun v hv => by
    have := List.idxOf_lt_length_iff.mpr ((hv0 v).mpr hv)
    omega
  have hinj : Set.InjOn pos G := by
    rintro (v | e) hx (v' | e') hy h
    · simp only [G, Finset.mem_coe, Finset.inl_mem_disjSum, Finset.mem_range] at hx hy
      exact congrArg _ ((List.idxOf_inj ((hv0 v).mpr hx)).mp h)
    · simp only [G, Finset.mem_coe, Finset.inl_mem_disjSum, Finset.mem_range] at hx
      have := hposlt v hx
      simp only [pos, Sum.elim_inl, Sum.elim_inr] at h
      omega
    · simp only [G, Finset.mem_coe, Finset.inl_mem_disjSum, Finset.mem_range] at hy
      have := hposlt v' hy
      simp only [pos, Sum.elim_inl, Sum.elim_inr] at h
      omega
    · simp only [G, Finset.mem_coe, Finset.inr_mem_disjSum] at hx hy
      simp only [pos, Sum.elim_inr, Nat.add_left_cancel_iff] at h
      exact congrArg _ (drawOf_inj gL (hFL e hx) (hFL e' hy) h)
  refine ⟨pos, hinj, fun ω hω => ?_⟩
  have hsame : (∀ v < n, ω (keys.idxOf v) < p ↔ v ∈ L) →
      addRandomLoops p (fun v => ω (keys.idxOf v)) keys g0 = gL := by
    intro h
    rw [hgL]
    refine addRandomLoops_congr _ _ _ _ _ (fun v hv => ?_) g0
    rw [h v ((hv0 v).mp hv)]
    split <;> simp [*]
  have hty := typed_iff (A := A) (sumOk := sumOk) hone hL.built h1 h2 h3 h4 h5 h6 F hFL τ (fun i => ω (n + i)) fun i => hω _
  have hmem : (∀ e ∈ G, ω (pos e) ∈ Want p L props lprops τ e) ↔
      (∀ v < n, ω (keys.idxOf v) < p ↔ v ∈ L) ∧
        ∀ e ∈ F, Drawn (if e.1 = e.2 then lprops else props) (ω (n + drawOf gL e)) (τ e) := by
    constructor
    · intro h
      refine ⟨fun v hv => ?_, fun e he => ?_⟩
      · have := h (.inl v) (by simp [G, hv])
        simp only [Want, pos, Sum.elim_inl] at this
        split at this
        · rename_i hvL; exact ⟨fun _ => hvL, fun _ => this⟩
        · rename_i hvL; exact ⟨fun q => absurd q (not_lt.mpr this), fun q => absurd q hvL⟩
      · exact h (.inr e) (by simp [G, he])
    · rintro ⟨q1, q2⟩ (v | e) he
      · simp only [G, Finset.inl_mem_disjSum, Finset.mem_range] at he
        simp only [Want, pos, Sum.elim_inl]
        split
        · rename_i hvL; exact (q1 v he).mpr hvL
        · rename_i hvL; exact not_lt.mp fun q => hvL ((q1 v he).mp q)
      · simp only [G, Finset.inr_mem_disjSum] at he
        exact q2 e he
  refine Iff.trans ?_ hmem.symm
  have hloops : ∀ g, setTypesRandom isOne sumOk
      (addRandomLoops p (fun v => ω (keys.idxOf v)) keys g0) props lprops
      (fun i => ω (n + i)) (fun i => ω (n + ((nonLoops (addRandomLoops p
        (fun v => ω (keys.idxOf v)) keys g0)).length + i))) = .ok g →
      ∀ v < n, (v, v) ∈ g.adj.edges ↔ ω (keys.idxOf v) < p := by
    intro g hg
    have k1 : randomGraph isOne sumOk n d p (fun v => ω (keys.idxOf v)) props lprops
        (fun i => ω (n + i)) (fun i => ω (n + ((nonLoops (addRandomLoops p
        (fun v => ω (keys.idxOf v)) keys g0)).length + i))) = .ok g := by
      unfold randomGraph
      rw [hg0]
      exact hg
    obtain ⟨-, -, -, -, -, -, hl, -⟩ := C76_random_graph hn hone (fun i => hω (n + i))
      (fun i => hω (n + ((nonLoops (addRandomLoops p (fun v => ω (keys.idxOf v)) keys g0)).length + i))) k1
    exact hl
  constructor
  · rintro ⟨g, k1, k2, k3⟩
    have hpat : ∀ v < n, ω (keys.idxOf v) < p ↔ v ∈ L := fun v hv => (hloops g k1 v hv).symm.trans (k2 v hv)
    rw [hsame hpat] at k1
    exact ⟨hpat, hty.mp ⟨g, k1, k3⟩⟩
  · rintro ⟨q1, q2⟩
    obtain ⟨g, k1, k2⟩ := hty.mpr q2
    rw [← hsame q1] at k1
    exact ⟨g, k1, fun v hv => (hloops g k1 v hv).trans (q1 v hv), k2⟩

/-- C108 for `generate_random_graph`, called without a seed: whether a vertex has a loop and the types of the edges are
independent, and independent of the places of the vertices; a vertex has a loop with probability `prob_loop`. `B` is any
event that depends on the places only and on which the graph without loops is `g0`. -/
theorem C108_random_graph_law {n : Nat} (hn : 2 ≤ n)
    {isOne sumOk : ℝ → Bool} (hone : ∀ x, isOne x = true → 0 < x) {p : ℝ} (hp0 : 0 ≤ p) (hp1 : p ≤ 1)
    {props lprops : Dict Int ℝ} (hd : Dict.Ok props) (hld : Dict.Ok lprops)
    (h1 : isOne (props.map Prod.snd).sum = true)
    (h2 : isOne (lprops.map Prod.snd).sum = true) (h3 : sumOk (props.map Prod.snd).sum = true)
    (h4 : sumOk (lprops.map Prod.snd).sum = true) (h5 : ∀ p ∈ props, 0 ≤ p.2) (h6 : ∀ p ∈ lprops, 0 ≤ p.2)
    {g0 : QGraph A} (B : Set (ℕ → ℝ)) (hB : MeasurableSet B)
    (hplaces : ∀ ω ω', (∀ v < n, pointOf ω' v = pointOf ω v) → ω ∈ B → ω' ∈ B)
    (hg0 : ∀ ω ∈ B, minimalGraph n (sqDist ω) = .ok g0) (L : Finset Nat) (F : Finset (Nat × Nat))
    (hF : ∀ e ∈ F, (e.1 ≠ e.2 ∧ e ∈ g0.adj.edges) ∨ (e.1 = e.2 ∧ e.1 < n ∧ e.1 ∈ L)) (τ : Nat × Nat → Int) :
    unifLaw (B ∩ {ω | ∃ g : QGraph A, randomGraphFrom isOne sumOk false n p props lprops ω = .ok g ∧
        (∀ v < n, (v, v) ∈ g.adj.edges ↔ v ∈ L) ∧ Typed g F τ}) =
      unifLaw B * ((∏ v ∈ Finset.range n, if v ∈ L then ENNReal.ofReal p else ENNReal.ofReal (1 - p)) *
        ∏ e ∈ F, ENNReal.ofReal (chance (if e.1 = e.2 then lprops else props) (τ e))) := by
  rcases B.eq_empty_or_nonempty with rfl | ⟨ω0, hω0⟩
  · simp
  obtain ⟨hmeas, hprod⟩ := want_law hone hp0 hp1 hd hld h1 h2 h5 h6 n L F τ
  obtain ⟨pos, hinj, hpos⟩ := random_draws (sumOk := sumOk) (p := p) hn hone h1 h2 h3 h4 h5 h6 (hg0 ω0 hω0) L F hF τ
  rw [← hprod, ← indep_draws B hB (2 * n) (fun ω ω' h hω => hplaces ω ω' (fun v hv => by
      unfold pointOf; rw [h _ (by omega), h _ (by omega)]) hω)
    ((Finset.range n).disjSum F) (fun e => 2 * n + pos e) (fun e he e' he' h => hinj he he' (by simpa using h))
    (fun e _ => Nat.le_add_right ..) _ fun e _ => hmeas e]
  refine measure_congr ?_
  filter_upwards [draws_in] with ω hω
  refine propext (and_congr_right fun hb => ?_)
  refine Iff.trans ?_ (hpos (fun i => ω (2 * n + i)) fun i => hω _)
  show (∃ g, randomGraphFrom isOne sumOk false n p props lprops ω = .ok g ∧ _) ↔ _
  simp only [randomGraphFrom, hg0 ω hb, Bool.false_eq_true, if_false, Nat.add_assoc]
  rfl

/-- C108 with a seed (finding F27): the types are not independent of the places. The edges that are not loops can be listed
so that the type of number `k` is decided by the place of vertex `k / 2`, by its first coordinate if `k` is even and by its
second one if `k` is odd. -/
theorem C108_seeded {n : Nat} (hn : 2 ≤ n) {isOne sumOk : ℝ → Bool} (hone : ∀ x, isOne x = true → 0 < x) {p : ℝ}
    {props lprops : Dict Int ℝ} {ω : ℕ → ℝ} (hω : ∀ i, 0 ≤ ω i ∧ ω i < 1) {g : QGraph A}
    (h : randomGraphFrom isOne sumOk true n p props lprops ω = .ok g) :
    ∃ l : List (Nat × Nat), l.Nodup ∧ (∀ e, e ∈ l ↔ e ∈ g.adj.edges ∧ e.1 ≠ e.2) ∧ ∀ k e, l[k]? = some e → k < 2 * n →
      ∃ x t, g.adj.look e.1 e.2 = some x ∧ x.etype = some t ∧
        Drawn props ((if k % 2 = 0 then (pointOf ω (k / 2)).1 else (pointOf ω (k / 2)).2) / 10) t := by
  obtain ⟨g0, hg0, hb0, -⟩ := C63_minimal (A := A) hn (sqDist ω)
  have hL := addRandomLoops_spec p (fun v => ω (2 * n + (Dict.keys g0.adj).idxOf v)) (Dict.keys g0.adj) hb0 (fun _ h => h)
  simp only [randomGraphFrom, hg0, if_true, Nat.zero_add] at h
  generalize addRandomLoops p (fun v => ω (2 * n + (Dict.keys g0.adj).idxOf v)) (Dict.keys g0.adj) g0 = g1 at h hL
  have hlr : ∀ i, 0 ≤ ω ((g1.adj.edges.filter fun e => e.1 ≠ e.2).length + i) ∧
      ω ((g1.adj.edges.filter fun e => e.1 ≠ e.2).length + i) < 1 := fun i => hω _
  have hrej := fun hh => C64_rejected (isOne := isOne) (sumOk := sumOk) hone (g := g1) (props := props) (lprops := lprops)
    hω hlr hh
  rw [h] at hrej
  simp only [reduceCtorEq, imp_false, not_or, not_exists, not_and, not_lt, Bool.not_eq_false] at hrej
  obtain ⟨h1, h2, h3, h4, h5, h6⟩ := hrej
  obtain ⟨g2, hg2, hsame, ha, -⟩ := C64_accepted (g := g1) hone hL.built hω hlr h1 h2 h3 h4 h5 h6
  rw [h] at hg2
  simp only [Except.ok.injEq] at hg2
  subst hg2
  have hok1 := (Numbered.of_built hL.built).ok
  have hok := (Numbered.of_built hsame.built).ok
  refine ⟨nonLoops g1, (Adj.edges_nodup hok1).filter _, fun e => ?_, fun k e hk hkn => ?_⟩
  · obtain ⟨u, v⟩ := e
    simp only [nonLoops, List.mem_filter, decide_eq_true_eq]
    rw [Adj.mem_edges hok, Adj.mem_edges hok1]
    have := congrArg Option.isSome (hsame.look u v)
    simp only [Option.isSome_map] at this
    rw [this]
  · have hx : (if k % 2 = 0 then (pointOf ω (k / 2)).1 else (pointOf ω (k / 2)).2) / 10 = ω k := by
      unfold pointOf
      split
      · rw [show 2 * (k / 2) = k by omega, mul_div_cancel_right₀ _ (by norm_num)]
      · rw [show 2 * (k / 2) + 1 = k by omega, mul_div_cancel_right₀ _ (by norm_num)]
    rw [hx]
    exact ha k e.1 e.2 hk

/-- The distance of two vertices in the plane. -/
noncomputable def apart (ω : ℕ → ℝ) (u v : Nat) : ℝ :=
  Real.sqrt (((pointOf ω u).1 - (pointOf ω v).1) ^ 2 + ((pointOf ω u).2 - (pointOf ω v).2) ^ 2)

theorem apart_comm (ω : ℕ → ℝ) (u v : Nat) : apart ω u v = apart ω v u := by
  unfold apart; congr 1; ring

/-- C108, places: with or without a seed there is a distance `r` such that vertices closer than `r` are joined, those
joined are not farther apart than `r`, and the pairs closer than `r` do not connect the graph. -/
theorem C108_places {n : Nat} (hn : 2 ≤ n) {isOne sumOk : ℝ → Bool} (hone : ∀ x, isOne x = true → 0 < x) {p : ℝ} {seeded : Bool}
    {props lprops : Dict Int ℝ} {ω : ℕ → ℝ} (hω : ∀ i, 0 ≤ ω i ∧ ω i < 1) {g : QGraph A}
    (h : randomGraphFrom isOne sumOk seeded n p props lprops ω = .ok g) :
    (∀ v, v ∈ Dict.keys g.adj ↔ v < n) ∧ Connected n g.adj.edges ∧ ∃ r,
      (∀ u < n, ∀ v < n, u ≠ v → apart ω u v < r → (u, v) ∈ g.adj.edges) ∧
      (∀ u v, u ≠ v → (u, v) ∈ g.adj.edges → apart ω u v ≤ r) ∧
      ∀ l : List (Nat × Nat), (∀ e ∈ l, e.1 < n ∧ e.2 < n ∧ apart ω e.1 e.2 < r) → ¬ Connected n l := by
  obtain ⟨g0, hg0, hb0, hv0, hs0, hc0, a, b, hab, hmem, hnear, hfar, hmin⟩ := C63_minimal (A := A) hn (sqDist ω)
  have hr : ∃ prnd rnd lrnd, (∀ i, 0 ≤ rnd i ∧ rnd i < 1) ∧ (∀ i, 0 ≤ lrnd i ∧ lrnd i < 1) ∧
      randomGraph isOne sumOk n (sqDist ω) p prnd props lprops rnd lrnd = .ok g := by
    simp only [randomGraphFrom, hg0] at h
    refine ⟨_, _, _, ?_, ?_, by simp only [randomGraph, hg0]; exact h⟩
    · exact fun i => hω _
    · exact fun i => hω _
  obtain ⟨prnd, rnd, lrnd, k1, k2, k3⟩ := hr
  obtain ⟨g0', hg0', -, hv, hc, hne, -, -⟩ := C76_random_graph hn hone k1 k2 k3
  rw [hg0] at hg0'
  simp only [Except.ok.injEq] at hg0'
  subst hg0'
  have hsq : ∀ i j, apart ω i j = Real.sqrt (sqDist ω i j) := fun i j => rfl
  have hnn : ∀ i j, 0 ≤ sqDist ω i j := fun i j => by unfold sqDist; positivity
  have hnear' : ∀ u < n, ∀ v < n, u ≠ v → apart ω u v < apart ω a b → (u, v) ∈ g0.adj.edges := by
    intro u hu v hv huv hlt
    rcases Nat.lt_or_gt_of_ne huv with q | q
    · refine hnear u v q hv ?_
      rw [hsq, hsq] at hlt
      exact (Real.sqrt_lt_sqrt_iff (hnn _ _)).mp hlt
    · refine (hs0 v u (hnear v u q hu ?_)).2
      rw [apart_comm, hsq, hsq] at hlt
      exact (Real.sqrt_lt_sqrt_iff (hnn _ _)).mp hlt
  refine ⟨hv, hc, apart ω a b, fun u hu v hv huv hlt => (hne u v huv).mpr (hnear' u hu v hv huv hlt), fun u v huv he => ?_,
    fun l hl hcon => hmin fun x hx y hy => Conn.of_all (fun e he => ?_) (hcon x hx y hy)⟩
  · have he0 := (hne u v huv).mp he
    rcases Nat.lt_or_gt_of_ne huv with q | q
    · exact Real.sqrt_le_sqrt (hfar u v q he0)
    · rw [apart_comm]
      exact Real.sqrt_le_sqrt (hfar v u q (hs0 u v he0).2)
  · obtain ⟨u, v⟩ := e
    obtain ⟨q1, q2, q3⟩ := hl _ he
    simp only at q1 q2 q3
    by_cases huv : u = v
    · subst huv; exact .refl _
    · refine .rel _ _ ?_
      simp only [List.mem_filter, ne_eq, Prod.mk.injEq, decide_eq_true_eq, not_and]
      refine ⟨hnear' u q1 v q2 huv q3, ?_, ?_⟩
      · rintro rfl rfl; exact lt_irrefl _ q3
      · rintro rfl rfl; rw [apart_comm] at q3; exact lt_irrefl _ q3

/-- C108, places: they are independent and uniform in the square of side 10. -/
theorem C108_places_law (S : Finset Nat) (a b a' b' : Nat → ℝ) (h : ∀ v ∈ S, 0 ≤ a v ∧ b v ≤ 10)
    (h' : ∀ v ∈ S, 0 ≤ a' v ∧ b' v ≤ 10) :
    unifLaw {ω | ∀ v ∈ S, pointOf ω v ∈ Ico (a v) (b v) ×ˢ Ico (a' v) (b' v)} =
      ∏ v ∈ S, ENNReal.ofReal ((b v - a v) / 10) * ENNReal.ofReal ((b' v - a' v) / 10) := by
  have hU : ∀ x y : ℝ, 0 ≤ x → y ≤ 10 → unif01 (Ico (x / 10) (y / 10)) = ENNReal.ofReal ((y - x) / 10) := by
    intro x y hx hy
    rw [unif01, Measure.restrict_apply measurableSet_Ico, inter_eq_left.mpr, Real.volume_Ico, sub_div]
    exact Ico_subset_Ico (by positivity) (by linarith)
  have := draws_prod (S.disjSum S) (Sum.elim (fun v => 2 * v) fun v => 2 * v + 1) (by
      rintro (v | v) - (w | w) - hvw
      · simp only [Sum.elim_inl] at hvw
        exact congrArg _ (by omega)
      · simp only [Sum.elim_inl, Sum.elim_inr] at hvw; omega
      · simp only [Sum.elim_inl, Sum.elim_inr] at hvw; omega
      · simp only [Sum.elim_inr] at hvw
        exact congrArg _ (by omega))
    (Sum.elim (fun v => Ico (a v / 10) (b v / 10)) fun v => Ico (a' v / 10) (b' v / 10)) (by
      rintro (v | v) - <;> exact measurableSet_Ico)
  rw [Finset.prod_disjSum] at this
  simp only [Sum.elim_inl, Sum.elim_inr] at this
  rw [Finset.prod_mul_distrib, ← Finset.prod_congr rfl fun v hv => hU (a v) (b v) (h v hv).1 (h v hv).2,
    ← Finset.prod_congr rfl fun v hv => hU (a' v) (b' v) (h' v hv).1 (h' v hv).2, ← this]
  congr 1
  ext ω
  simp only [mem_ofPred_eq, pointOf, mem_prod, mem_Ico]
  have hx : ∀ x y : ℝ, (x / 10 ≤ y ↔ x ≤ y * 10) ∧ (y < x / 10 ↔ y * 10 < x) := fun x y =>
    ⟨div_le_iff₀ (by norm_num), lt_div_iff₀ (by norm_num)⟩
  constructor
  · rintro q (v | v) hv
    · simp only [Finset.inl_mem_disjSum] at hv
      exact ⟨(hx _ _).1.mpr (q v hv).1.1, (hx _ _).2.mpr (q v hv).1.2⟩
    · simp only [Finset.inr_mem_disjSum] at hv
      exact ⟨(hx _ _).1.mpr (q v hv).2.1, (hx _ _).2.mpr (q v hv).2.2⟩
  · intro q v hv
    have q1 := q (.inl v) (by simpa using hv)
    have q2 := q (.inr v) (by simpa using hv)
    exact ⟨⟨(hx _ _).1.mp q1.1, (hx _ _).2.mp q1.2⟩, (hx _ _).1.mp q2.1, (hx _ _).2.mp q2.2⟩

/-- On the graph of C64 with two edges that are no loops: both have type 2 with probability 9/16, and the loop has type 0. -/
example : unifLaw {ω | ∃ g', setTypesRandom (fun x : ℝ => decide (x = 1)) (fun x => decide (x = 1)) loopGraph
      [(1, 1 / 4), (2, 3 / 4)] [(3, 0), (0, 1)] ω (fun i => ω ((nonLoops loopGraph).length + i)) = .ok g' ∧
      Typed g' {(0, 1), (1, 0), (0, 0)} fun e => if e.1 = e.2 then 0 else 2} = ENNReal.ofReal (9 / 16) := by
  rw [C108_types_law (by intro x hx; rw [of_decide_eq_true hx]; norm_num)
    (show Built loopGraph from .new (by unfold Adj.Ok; decide)) (by simp [Dict.Ok, Dict.keys]) (by simp [Dict.Ok, Dict.keys]) (by norm_num) (by norm_num)
    (by norm_num) (by norm_num) (by norm_num) (by norm_num) _ (by decide)]
  rw [Finset.prod_insert (by decide), Finset.prod_insert (by decide), Finset.prod_singleton]
  have h1 : chance [(1, 1 / 4), (2, 3 / 4)] 2 = 3 / 4 := by norm_num [chance, Dict.get?]
  have h2 : chance [(3, 0), (0, 1)] 0 = 1 := by norm_num [chance, Dict.get?]
  simp only [Nat.zero_ne_one, Nat.one_ne_zero, if_true, if_false, h1, h2]
  rw [ENNReal.ofReal_one, mul_one, ← ENNReal.ofReal_mul (by norm_num)]
  norm_num

/-- The graph of two vertices. -/
theorem minimal_two {D : Type*} [LinearOrder D] (d : Nat → Nat → D) :
    ∃ g0 : QGraph Unit, minimalGraph 2 d = .ok g0 ∧ g0.adj.edges = [(0, 1), (1, 0)] :=
  ⟨_, rfl, by decide +kernel⟩

/-- Two vertices and `prob_loop = 1/2`: the first coordinate of vertex 0 is below 5, only vertex 1 has a loop, and the edge
from 0 to 1 has type 1, with probability 1/2 · 1/4 · 1/4. -/
example :
    unifLaw ({ω | (pointOf ω 0).1 < 5} ∩ {ω | ∃ g : QGraph Unit, randomGraphFrom (fun x : ℝ => decide (x = 1))
      (fun x => decide (x = 1)) false 2 (1 / 2) [(1, 1 / 4), (2, 3 / 4)] [(0, 1)] ω = .ok g ∧
      (∀ v < 2, (v, v) ∈ g.adj.edges ↔ v ∈ ({1} : Finset Nat)) ∧ Typed g {(0, 1), (1, 1)} fun e => if e.1 = e.2 then 0 else 1}) =
    ENNReal.ofReal (1 / 32) := by
  obtain ⟨g0, h0, he⟩ := minimal_two fun _ _ => (0 : ℝ)
  have hm : MeasurableSet {ω : ℕ → ℝ | (pointOf ω 0).1 < 5} :=
    measurableSet_lt ((measurable_pi_apply 0).mul_const 10) measurable_const
  rw [C108_random_graph_law (g0 := g0) (by norm_num) (by intro x hx; rw [of_decide_eq_true hx]; norm_num) (by norm_num)
    (by norm_num) (by simp [Dict.Ok, Dict.keys]) (by simp [Dict.Ok, Dict.keys]) (by norm_num) (by norm_num)
    (by norm_num) (by norm_num) (by norm_num) (by norm_num) _ hm (fun ω ω' h hω => by
      show (pointOf ω' 0).1 < 5
      rw [h 0 (by norm_num)]; exact hω) (fun ω _ => h0) {1} {(0, 1), (1, 1)} (by simp [he])]
  rw [Finset.prod_insert (by decide), Finset.prod_singleton]
  have h1 : chance [(1, 1 / 4), (2, 3 / 4)] 1 = 1 / 4 := by norm_num [chance, Dict.get?]
  have h2 : chance [(0, 1)] 0 = 1 := by norm_num [chance, Dict.get?]
  have h3 : (1 : ℝ) - 1 / 2 = 1 / 2 := by norm_num
  have h4 : unifLaw {ω : ℕ → ℝ | (pointOf ω 0).1 < 5} = ENNReal.ofReal (1 / 2) := by
    have := draws_prod {0} id (Set.injOn_id _) (fun _ => Iio (1 / 2)) fun _ _ => measurableSet_Iio
    simp only [Finset.mem_singleton, forall_eq, id, Finset.prod_singleton] at this
    rw [unif01, Measure.restrict_apply measurableSet_Iio, inter_comm, Ico_inter_Iio, Real.volume_Ico] at this
    convert this using 2
    · ext ω
      simp only [pointOf, mem_ofPred_eq, mem_Iio]
      constructor <;> intro h <;> linarith
    · norm_num
  simp only [Nat.zero_ne_one, if_true, if_false, h1, h2, h3, h4, ite_self, Finset.prod_const, Finset.card_range]
  rw [ENNReal.ofReal_one, mul_one, ← ENNReal.ofReal_pow (by norm_num), ← ENNReal.ofReal_mul (by norm_num),
    ← ENNReal.ofReal_mul (by norm_num)]
  norm_num

/-- With a seed: an edge between two vertices has type 1 exactly if a coordinate of a vertex is below 2.5. -/
example (ω : ℕ → ℝ) (hω : ∀ i, 0 ≤ ω i ∧ ω i < 1) : ∃ g : QGraph Unit, randomGraphFrom (fun x : ℝ => decide (x = 1))
      (fun x => decide (x = 1)) true 2 0 [(1, 1 / 4), (2, 3 / 4)] [(0, 1)] ω = .ok g ∧
    ∃ e, e ∈ g.adj.edges ∧ ∃ x, g.adj.look e.1 e.2 = some x ∧ (x.etype = some 1 ↔ (pointOf ω 0).1 < 5 / 2) := by
  have hone : ∀ x : ℝ, decide (x = 1) = true → 0 < x := by intro x hx; rw [of_decide_eq_true hx]; norm_num
  obtain ⟨g0, h0, he0⟩ := minimal_two (sqDist ω)
  have hg : ∃ g : QGraph Unit, randomGraphFrom (fun x : ℝ => decide (x = 1))
      (fun x => decide (x = 1)) true 2 0 [(1, 1 / 4), (2, 3 / 4)] [(0, 1)] ω = .ok g ∧ (0, 1) ∈ g.adj.edges := by
    have hr : randomGraphFrom (A := Unit) (fun x : ℝ => decide (x = 1))
        (fun x => decide (x = 1)) true 2 0 [(1, 1 / 4), (2, 3 / 4)] [(0, 1)] ω =
        randomGraph (fun x : ℝ => decide (x = 1)) (fun x => decide (x = 1)) 2 (sqDist ω) 0
          (fun v => ω (2 * 2 + (Dict.keys g0.adj).idxOf v)) [(1, 1 / 4), (2, 3 / 4)] [(0, 1)] ω
          (fun i => ω ((nonLoops (addRandomLoops 0 (fun v => ω (2 * 2 + (Dict.keys g0.adj).idxOf v))
            (Dict.keys g0.adj) g0)).length + i)) := by
      simp only [randomGraphFrom, randomGraph, h0, if_true, Nat.zero_add]
      rfl
    rw [hr]
    obtain ⟨g, hg⟩ := (C76_when (A := Unit) (n := 2) (le_refl 2) (d := sqDist ω) (probLoop := (0 : ℝ))
      (prnd := fun v => ω (2 * 2 + (Dict.keys g0.adj).idxOf v)) (sumOk := fun x => decide (x = 1))
      (props := [(1, 1 / 4), (2, 3 / 4)]) (lprops := [(0, 1)]) hone hω
      (lrnd := fun i => ω ((nonLoops (addRandomLoops 0 (fun v => ω (2 * 2 + (Dict.keys g0.adj).idxOf v))
            (Dict.keys g0.adj) g0)).length + i)) (fun i => hω _)).mpr (by norm_num)
    refine ⟨g, hg, ?_⟩
    obtain ⟨g0', h0', -, -, -, hne, -⟩ := C76_random_graph (le_refl 2) hone hω (fun i => hω _) hg
    rw [h0] at h0'
    simp only [Except.ok.injEq] at h0'
    subst h0'
    rw [hne 0 1 (by norm_num), he0]
    simp
  obtain ⟨g, hg, he⟩ := hg
  refine ⟨g, hg, ?_⟩
  obtain ⟨l, -, hl, hk⟩ := C108_seeded (le_refl 2) hone hω hg
  cases l with
  | nil => exact absurd ((hl (0, 1)).mpr ⟨he, by norm_num⟩) (by simp)
  | cons e l =>
    obtain ⟨x, t, k1, k2, k3⟩ := hk 0 e rfl (by norm_num)
    refine ⟨e, ((hl e).mp (List.mem_cons_self ..)).1, x, k1, ?_⟩
    rw [k2]
    have h5 : ∀ p ∈ ([(1, 1 / 4), (2, 3 / 4)] : Dict Int ℝ), 0 ≤ p.2 := by norm_num
    simp only [Nat.zero_mod, if_true, Nat.zero_div] at k3
    constructor
    · intro ht
      simp only [Option.some.injEq] at ht
      subst ht
      obtain ⟨k, p, q1, q2, q3⟩ := k3
      match k, q1 with
      | 0, q1 => norm_num [share] at q3; linarith
      | 1, q1 => simp at q1
    · intro hx
      have : Drawn ([(1, 1 / 4), (2, 3 / 4)] : Dict Int ℝ) ((pointOf ω 0).1 / 10) 1 := by
        refine ⟨0, 1 / 4, rfl, ?_, ?_⟩
        · have := (hω 0).1
          norm_num [share, pointOf]
          linarith
        · norm_num [share]; linarith
      rw [Drawn.unique h5 k3 this]

end Verif.GenSpec
