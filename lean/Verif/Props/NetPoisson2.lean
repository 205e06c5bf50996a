import Verif.Props.NetPoisson
import Mathlib.Data.Nat.Choose.Multinomial
import Mathlib.Probability.Independence.Basic

/-!
# Agents from outside at several queues: independent Poisson processes (C118)
-/

namespace Verif.ThinSpec

open Verif MeasureTheory Set ProbabilityTheory Thin
open Verif.NetSpec (drawn Later C112_from_start)
open scoped ENNReal Topology

/-- A network with clock past `u`. On the new network, `initialize(queues=l)` was called for different queues; then came any
operations but `initialize` and `clear`. Among the queues of `l` are the queues `q i`, still active, and the `arrival_f` of
`q i` is `poisson_random_measure` with the draws `ω i`. -/
inductive PoissonNet (R : Type*) [LinearOrder R] [Add R] {I : Type*} (q : I → ℕ) (r : I → ℝ) (rate : I → ℝ → ℝ)
    (ω : I → Draws) (u : ℝ) : Net (WithTop ℝ) R → Prop
  | mk (N : NetCfg (WithTop ℝ) R) (b : ℕ → Bool) (bas : Bool) (probs : ℕ → List R) (pick : List ℕ → ℕ → List ℕ)
      (l : List ℕ) (n0 n : Net (WithTop ℝ) R) : N.OkA → (∀ v, (probs v).length = (N.outEdges v).length) → l.Nodup →
      (∀ m, N.maxAgents = .fin m → (l.length : ℤ) ≤ m) →
      (Net.init N b bas probs).initialise N pick (.queues l) = .ok n0 → Later N n0 n → (∀ i, q i ∈ l) →
      (∀ i, (N.qc (q i)).edge.etype ≠ 0) → (∀ i, Simple (N.qc (q i))) →
      (∀ i, Feeds (r i) (rate i) (ω i) (N.qc (q i)).arrivalF) → (∀ i, (n.qs (q i)).active = true) →
      u ≤ n.t → PoissonNet R q r rate ω u n

/-- `k₁` of the agents created for all these queues come in `(a, s₁]`, `k₂` in `(s₁, s₂]`, and so on. -/
def CameAll {I : Type*} [Fintype I] (l : I → List ((ℕ × ℕ) × WithTop ℝ)) : ℝ → List (ℝ × ℕ) → Prop
  | _, [] => True
  | a, (s, k) :: L => ∑ i, (l i).countP (fun p => decide ((a : WithTop ℝ) < p.2 ∧ p.2 ≤ (s : WithTop ℝ))) = k ∧ CameAll l s L

theorem PoissonNet.queue {R : Type*} [LinearOrder R] [Add R] {I : Type*} {q : I → ℕ} {r : I → ℝ} {rate : I → ℝ → ℝ}
    {ω : I → Draws} {u : ℝ} {n : Net (WithTop ℝ) R} (h : PoissonNet R q r rate ω u n) (i : I) :
    PoissonRun R (r i) (rate i) (ω i) (q i) u (n.qs (q i)) := by
  obtain ⟨N, b, bas, probs, pick, l, n0, n, hN, hpr, hl, hm, h0, hlat, hk, het, hs, hf, hact, hu⟩ := h
  exact .mk N b bas probs pick l n0 n hN hpr hl hm h0 hlat (hk i) (het i) (hs i) (hf i) (hact i) hu

theorem measurableSet_counts {r : ℝ} {rate : ℝ → ℝ} (hm : Measurable rate) (t : ℝ) (L : List (ℝ × ℕ)) (a : ℝ) :
    MeasurableSet {ω | Counts r rate ω t a L} := by
  induction L generalizing a with
  | nil => exact MeasurableSet.univ
  | cons x L ih => exact (measurableSet_arrivals hm t a x.1 x.2).inter (ih x.1)

section main

variable {I : Type*} [Fintype I] {R : Type*} [LinearOrder R] [Add R] {Ω : Type*} [MeasurableSpace Ω] {P : Measure Ω}
  {q : I → ℕ} {r : I → ℝ} {rate : I → ℝ → ℝ} {D : I → Ω → Draws} {u : ℝ} {n : Ω → Net (WithTop ℝ) R}

/-- Almost surely the agents counted are the points of `poisson_random_measure`. -/
theorem joint_counts (hD : ∀ i, AEMeasurable (D i) P) (hlaw : ∀ i, P.map (D i) = law) (h : ∀ i, Rate (rate i) (r i))
    (hinf : ∀ i, Filter.Tendsto (fun s => ∫ x in (0 : ℝ)..s, rate i x) Filter.atTop Filter.atTop)
    (hn : ∀ᵐ x ∂P, PoissonNet R q r rate (fun i => D i x) u (n x)) :
    ∀ᵐ x ∂P, ∀ i, ∀ (a : ℝ) (L : List (ℝ × ℕ)), (∀ p ∈ L, p.1 ≤ u) →
      (Came ((n x).qs (q i)).created a L ↔ Counts (r i) (rate i) (D i x) 0 a L) := by
  have h1 : ∀ᵐ x ∂P, ∀ i, Pos (D i x) ∧ ∀ j, ∃ m y, Arrives (r i) (rate i) (D i x) 0 j m y := by
    rw [ae_all_iff]
    intro i
    refine ae_of_ae_map (hD i) (p := fun ω => Pos ω ∧ ∀ j, ∃ m y, Arrives (r i) (rate i) ω 0 j m y) ?_
    rw [hlaw i]
    exact ae_pos.and (ae_return (h i) (hinf i))
  filter_upwards [h1, hn] with x g1 g2 i a L hL
  exact (g2.queue i).counts (h i).pos (g1 i).1 (g1 i).2 L hL a

/-- C118: let the `arrival_f` of each of the queues `q i` be `poisson_random_measure`, each with its own rate function
(measurable, values in `[0, rate_max]`, infinite integral). The draws of different queues are independent. Almost surely the
network was started by `initialize` and has come past time `u`, the queues still being active; what else it contains and
what is done to it may depend on the draws in any way. Then the agents that come to these queues from outside until `u` form
independent Poisson processes. -/
theorem C118_independent (hD : ∀ i, AEMeasurable (D i) P) (hlaw : ∀ i, P.map (D i) = law) (hind : iIndepFun D P)
    (h : ∀ i, Rate (rate i) (r i))
    (hinf : ∀ i, Filter.Tendsto (fun s => ∫ x in (0 : ℝ)..s, rate i x) Filter.atTop Filter.atTop)
    (hn : ∀ᵐ x ∂P, PoissonNet R q r rate (fun i => D i x) u (n x)) (L : I → List (ℝ × ℕ)) (hi : ∀ i, Incr 0 (L i))
    (hL : ∀ i, ∀ p ∈ L i, p.1 ≤ u) :
    P.real {x | ∀ i, Came ((n x).qs (q i)).created 0 (L i)} = ∏ i, indepPoisson (rate i) 0 (L i) := by
  have e : P {x | ∀ i, Came ((n x).qs (q i)).created 0 (L i)} =
      P (⋂ i ∈ (Finset.univ : Finset I), D i ⁻¹' {ω | Counts (r i) (rate i) ω 0 0 (L i)}) := by
    refine measure_congr ?_
    filter_upwards [joint_counts hD hlaw h hinf hn] with x hx
    refine propext ?_
    show (∀ i, Came ((n x).qs (q i)).created 0 (L i)) ↔
      x ∈ ⋂ i ∈ (Finset.univ : Finset I), D i ⁻¹' {ω | Counts (r i) (rate i) ω 0 0 (L i)}
    simp only [mem_iInter, Finset.mem_univ, true_imp_iff, mem_preimage]
    exact forall_congr' fun i => hx i 0 (L i) (hL i)
  rw [measureReal_def, e, hind.measure_inter_preimage_eq_mul Finset.univ
    (fun i _ => measurableSet_counts (h i).meas 0 (L i) 0), ENNReal.toReal_prod]
  refine Finset.prod_congr rfl fun i _ => ?_
  have hm := measurableSet_counts (r := r i) (h i).meas 0 (L i) 0
  rw [← Measure.map_apply_of_aemeasurable (hD i) hm, hlaw i, ← measureReal_def, C95_poisson (h i) 0 (L i) (hi i)]

/-- Add the interval up to `s`, with the number of agents in it. -/
theorem came_concat (l : List ((ℕ × ℕ) × WithTop ℝ)) (M : List (ℝ × ℕ)) (a s : ℝ) (k : ℕ) :
    Came l a (M ++ [(s, k)]) ↔ Came l a M ∧
      l.countP (fun p => decide ((((M.map Prod.fst).getLastD a : ℝ) : WithTop ℝ) < p.2 ∧ p.2 ≤ (s : WithTop ℝ))) = k := by
  induction M generalizing a with
  | nil => simp [Came]
  | cons x M ih =>
    simp only [List.cons_append, Came, ih, List.map_cons, List.getLastD_cons]
    tauto

theorem indepPoisson_concat (f : ℝ → ℝ) (M : List (ℝ × ℕ)) (a s : ℝ) (k : ℕ) :
    indepPoisson f a (M ++ [(s, k)]) = indepPoisson f a M *
      (poissonMeasure (∫ x in ((M.map Prod.fst).getLastD a)..s, f x).toNNReal).real {k} := by
  induction M generalizing a with
  | nil => simp [indepPoisson]
  | cons x M ih =>
    simp only [List.cons_append, indepPoisson, ih, List.map_cons, List.getLastD_cons]
    ring

theorem incr_concat (M : List (ℝ × ℕ)) (a s : ℝ) (k : ℕ) :
    Incr a (M ++ [(s, k)]) ↔ Incr a M ∧ (M.map Prod.fst).getLastD a ≤ s := by
  induction M generalizing a with
  | nil => simp [Incr]
  | cons x M ih =>
    simp only [List.cons_append, Incr, ih, List.map_cons, List.getLastD_cons]
    tauto

/-- The number of all points of independent Poisson variables. -/
theorem poisson_total (m : I → ℝ) (hm : ∀ i, 0 ≤ m i) (k : ℕ) [DecidableEq I] :
    ∑ K ∈ Finset.piAntidiag (Finset.univ : Finset I) k, ∏ i, (poissonMeasure (m i).toNNReal).real {K i} =
      (poissonMeasure (∑ i, m i).toNNReal).real {k} := by
  simp only [poissonMeasure_real_singleton, Real.coe_toNNReal _ (hm _),
    Real.coe_toNNReal _ (Finset.sum_nonneg fun i _ => hm i)]
  rw [Finset.sum_pow_eq_sum_piAntidiag, ← Finset.sum_neg_distrib, Real.exp_sum, Finset.mul_sum, Finset.sum_div]
  refine Finset.sum_congr rfl fun K hK => ?_
  obtain ⟨hK, -⟩ := Finset.mem_piAntidiag.mp hK
  rw [Finset.prod_div_distrib, Finset.prod_mul_distrib, Nat.multinomial, hK,
    Nat.cast_div (by rw [← hK]; exact Nat.prod_factorial_dvd_factorial_sum _ _) (by
      exact_mod_cast (Finset.prod_ne_zero_iff.mpr fun i _ => Nat.factorial_ne_zero (K i)))]
  have : (k.factorial : ℝ) ≠ 0 := by exact_mod_cast k.factorial_ne_zero
  push_cast
  field_simp

theorem came_null (hD : ∀ i, AEMeasurable (D i) P) (hlaw : ∀ i, P.map (D i) = law) (h : ∀ i, Rate (rate i) (r i))
    (hinf : ∀ i, Filter.Tendsto (fun s => ∫ x in (0 : ℝ)..s, rate i x) Filter.atTop Filter.atTop)
    (hn : ∀ᵐ x ∂P, PoissonNet R q r rate (fun i => D i x) u (n x)) (L : I → List (ℝ × ℕ))
    (hL : ∀ i, ∀ p ∈ L i, p.1 ≤ u) : NullMeasurableSet {x | ∀ i, Came ((n x).qs (q i)).created 0 (L i)} P := by
  have e : NullMeasurableSet (⋂ i, D i ⁻¹' {ω | Counts (r i) (rate i) ω 0 0 (L i)}) P :=
    NullMeasurableSet.iInter fun i => (hD i).nullMeasurable (measurableSet_counts (h i).meas 0 (L i) 0)
  refine e.congr ?_
  filter_upwards [joint_counts hD hlaw h hinf hn] with x hx
  refine propext ?_
  show x ∈ (⋂ i, D i ⁻¹' {ω | Counts (r i) (rate i) ω 0 0 (L i)}) ↔ ∀ i, Came ((n x).qs (q i)).created 0 (L i)
  simp only [mem_iInter, mem_preimage]
  exact forall_congr' fun i => (hx i 0 (L i) (hL i)).symm

/-- C118: and all these agents together form a Poisson process, whose rate is the sum of the rates. -/
theorem C118_total (hD : ∀ i, AEMeasurable (D i) P) (hlaw : ∀ i, P.map (D i) = law) (hind : iIndepFun D P)
    (h : ∀ i, Rate (rate i) (r i))
    (hinf : ∀ i, Filter.Tendsto (fun s => ∫ x in (0 : ℝ)..s, rate i x) Filter.atTop Filter.atTop)
    (hn : ∀ᵐ x ∂P, PoissonNet R q r rate (fun i => D i x) u (n x)) (L : List (ℝ × ℕ)) (hi : Incr 0 L)
    (hL : ∀ p ∈ L, p.1 ≤ u) :
    P.real {x | CameAll (fun i => ((n x).qs (q i)).created) 0 L} = indepPoisson (fun y => ∑ i, rate i y) 0 L := by
  classical
  have : IsProbabilityMeasure P := hind.isProbabilityMeasure
  suffices key : ∀ (L : List (ℝ × ℕ)) (a : ℝ) (M : I → List (ℝ × ℕ)), 0 ≤ a → Incr a L → (∀ p ∈ L, p.1 ≤ u) →
      (∀ i, Incr 0 (M i)) → (∀ i, ∀ p ∈ M i, p.1 ≤ u) → (∀ i, ((M i).map Prod.fst).getLastD 0 = a) →
      NullMeasurableSet {x | (∀ i, Came ((n x).qs (q i)).created 0 (M i)) ∧
        CameAll (fun i => ((n x).qs (q i)).created) a L} P ∧
      P.real {x | (∀ i, Came ((n x).qs (q i)).created 0 (M i)) ∧ CameAll (fun i => ((n x).qs (q i)).created) a L} =
        (∏ i, indepPoisson (rate i) 0 (M i)) * indepPoisson (fun y => ∑ i, rate i y) a L by
    have := (key L 0 (fun _ => []) le_rfl hi hL (fun _ => trivial) (by simp) (by simp)).2
    simpa [Came, indepPoisson] using this
  clear hi hL L
  intro L
  induction L with
  | nil =>
    intro a M _ _ _ hM hMu _
    simp only [CameAll, and_true, indepPoisson, mul_one]
    exact ⟨came_null hD hlaw h hinf hn M hMu, C118_independent hD hlaw hind h hinf hn M hM hMu⟩
  | cons y L ih =>
    obtain ⟨s, k⟩ := y
    intro a M ha hi hL hM hMu hMa
    obtain ⟨has, hi⟩ := hi
    have hsu : s ≤ u := hL (s, k) (by simp)
    set E : (I → ℕ) → Set Ω := fun K => {x | (∀ i, Came ((n x).qs (q i)).created 0 (M i ++ [(s, K i)])) ∧
      CameAll (fun i => ((n x).qs (q i)).created) s L} with hE
    have hK := fun K : I → ℕ => ih s (fun i => M i ++ [(s, K i)]) (ha.trans has) hi (fun p hp => hL p (by simp [hp]))
      (fun i => (incr_concat _ _ _ _).mpr ⟨hM i, by rw [hMa i]; exact has⟩)
      (fun i p hp => by
        rcases List.mem_append.mp hp with hp | hp
        · exact hMu i p hp
        · simp only [List.mem_singleton] at hp; rw [hp]; exact hsu)
      (fun i => by simp)
    have e : {x | (∀ i, Came ((n x).qs (q i)).created 0 (M i)) ∧ CameAll (fun i => ((n x).qs (q i)).created) a ((s, k) :: L)} =
        ⋃ K ∈ Finset.piAntidiag (Finset.univ : Finset I) k, E K := by
      ext x
      simp only [mem_ofPred_eq, CameAll, mem_iUnion, exists_prop, Finset.mem_piAntidiag, hE, came_concat, hMa]
      constructor
      · rintro ⟨h1, h2, h3⟩
        exact ⟨fun i => _, ⟨h2, fun i _ => Finset.mem_univ i⟩, fun i => ⟨h1 i, rfl⟩, h3⟩
      · rintro ⟨K, ⟨h1, -⟩, h2, h3⟩
        refine ⟨fun i => (h2 i).1, ?_, h3⟩
        rw [← h1]
        exact Finset.sum_congr rfl fun i _ => (h2 i).2
    have hdis : ∀ K K', K ≠ K' → Disjoint (E K) (E K') := by
      intro K K' hne
      rw [disjoint_left]
      rintro x ⟨h1, -⟩ ⟨h2, -⟩
      refine hne (funext fun i => ?_)
      exact ((came_concat _ _ _ _ _).mp (h1 i)).2.symm.trans ((came_concat _ _ _ _ _).mp (h2 i)).2
    rw [e]
    refine ⟨NullMeasurableSet.biUnion (Finset.countable_toSet _) fun K _ => (hK K).1, ?_⟩
    rw [measureReal_def, measure_biUnion_finset₀ (fun K _ K' _ hne => (hdis K K' hne).aedisjoint) fun K _ => (hK K).1,
      ENNReal.toReal_sum fun K _ => measure_ne_top _ _]
    have hnn : ∀ i, 0 ≤ ∫ x in a..s, rate i x := fun i => int_nonneg (h i) has
    have hsum : ∫ x in a..s, ∑ i, rate i x = ∑ i, ∫ x in a..s, rate i x :=
      intervalIntegral.integral_finsetSum fun i _ => (h i).integrable a s
    rw [indepPoisson, hsum, ← poisson_total _ hnn, Finset.sum_mul, Finset.mul_sum]
    refine Finset.sum_congr rfl fun K _ => ?_
    rw [← measureReal_def, (hK K).2]
    simp only [indepPoisson_concat, hMa, Finset.prod_mul_distrib]
    ring

end main

/-! ## Example -/

section example_

variable {r : Fin 2 → ℝ} {rate : Fin 2 → ℝ → ℝ} {ω : Fin 2 → Draws}

/-- Queues 0 and 1 come from different vertices and lead to vertex 2, where the NullQueue 2 begins. They have infinitely many
servers, service takes time 1. -/
noncomputable def twoNet (r : Fin 2 → ℝ) (rate : Fin 2 → ℝ → ℝ) (ω : Fin 2 → Draws) : NetCfg (WithTop ℝ) ℕ where
  nE := 3
  qc k := match k with
    | 0 => { kind := .server, edge := ⟨0, 2, 0, 1⟩, servers := .inf, arrivalF := poisF (r 0) (rate 0) (ω 0)
             serviceF := fun _ t => t + 1, factory := .plain, activeCap := .inf, deactiveT := ⊤, buffer := .inf
             maxServers := .inf }
    | 1 => { kind := .server, edge := ⟨1, 2, 1, 1⟩, servers := .inf, arrivalF := poisF (r 1) (rate 1) (ω 1)
             serviceF := fun _ t => t + 1, factory := .plain, activeCap := .inf, deactiveT := ⊤, buffer := .inf
             maxServers := .inf }
    | _ => { kind := .null, edge := ⟨2, 3, k, 0⟩, servers := .inf, arrivalF := fun _ t => t + 1
             serviceF := fun _ t => t + 1, factory := .plain, activeCap := .inf, deactiveT := ⊤, buffer := .inf
             maxServers := .inf }
  outEdges v := match v with
    | 0 => [0]
    | 1 => [1]
    | 2 => [2]
    | _ => []
  maxAgents := .inf
  unif _ := 0
  jit _ t := t + 1
  garbage _ _ := (0, 0)

def twoProbs (v : ℕ) : List ℕ := match v with
  | 0 => [1]
  | 1 => [1]
  | 2 => [1]
  | _ => []

theorem twoNet_cases {k : ℕ} (hk : k < (twoNet r rate ω).nE) : k = 0 ∨ k = 1 ∨ k = 2 := by
  have : k < 3 := hk
  omega

theorem twoNet_ok (hr : ∀ i, 0 < r i) (hp : ∀ i, Pos (ω i)) : (twoNet r rate ω).Ok where
  idx := by intro k hk; rcases twoNet_cases hk with rfl | rfl | rfl <;> rfl
  kinds := by intro k hk; rcases twoNet_cases hk with rfl | rfl | rfl <;> simp [twoNet, Simple]
  fwd := by
    intro k hk
    rcases twoNet_cases hk with rfl | rfl | rfl
    · exact ⟨poisF_ge (hr 0) (hp 0), fun _ => le_add_one'⟩
    · exact ⟨poisF_ge (hr 1) (hp 1), fun _ => le_add_one'⟩
    · exact ⟨fun _ => le_add_one', fun _ => le_add_one'⟩
  out := by intro k hk; rcases twoNet_cases hk with rfl | rfl | rfl <;> simp [twoNet, Simple]
  outLt := by intro k hk; rcases twoNet_cases hk with rfl | rfl | rfl <;> simp [twoNet, Simple]
  jit := fun _ => le_add_one'

theorem twoNet_noInf : (twoNet r rate ω).NoInf := by
  right
  intro k hk
  rcases twoNet_cases hk with rfl | rfl | rfl <;> simp [twoNet, Simple]

/-- The points of `poisson_random_measure` after `t` and before `u`. -/
def between (r : ℝ) (rate : ℝ → ℝ) (ω : Draws) (u : ℝ) (t : WithTop ℝ) : Set ℕ :=
  {j | ∃ m x, Arrives r rate ω 0 j m x ∧ t < ((x : ℝ) : WithTop ℝ) ∧ x < u}

theorem between_mono {r : ℝ} {rate : ℝ → ℝ} {ω : Draws} {u : ℝ} (hfin : {j | ∃ m x, Arrives r rate ω 0 j m x ∧ x < u}.Finite)
    {s t : WithTop ℝ} (hst : s ≤ t) : (between r rate ω u t).ncard ≤ (between r rate ω u s).ncard := by
  refine ncard_le_ncard ?_ (hfin.subset ?_)
  · rintro j ⟨m, x, h1, h2, h3⟩; exact ⟨m, x, h1, hst.trans_lt h2, h3⟩
  · rintro j ⟨m, x, h1, h2, h3⟩; exact ⟨m, x, h1, h3⟩

theorem between_lt {r : ℝ} {rate : ℝ → ℝ} {ω : Draws} {u : ℝ} (hr : 0 < r) (hp : Pos ω)
    (hfin : {j | ∃ m x, Arrives r rate ω 0 j m x ∧ x < u}.Finite) {i m m' : ℕ} {x x' : ℝ} (h1 : Arrives r rate ω 0 i m x)
    (h2 : Call r rate ω m x m' x') (hxu : x' < u) :
    (between r rate ω u ((x' : ℝ) : WithTop ℝ)).ncard < (between r rate ω u ((x : ℝ) : WithTop ℝ)).ncard := by
  have hlt := arrives_lt hr hp h1 h2
  refine ncard_lt_ncard ?_ (hfin.subset ?_)
  · refine (ssubset_iff_of_subset ?_).mpr ⟨i + 1, ⟨m', x', h1.call h2, by exact_mod_cast hlt, hxu⟩, ?_⟩
    · rintro j ⟨m, y, g1, g2, g3⟩; exact ⟨m, y, g1, lt_trans (by exact_mod_cast hlt) g2, g3⟩
    · rintro ⟨m1, y, g1, g2, -⟩
      obtain ⟨-, rfl⟩ := arrives_unique g1 (h1.call h2)
      exact lt_irrefl _ g2
  · rintro j ⟨m, x, h1, h2, h3⟩; exact ⟨m, x, h1, h3⟩

/-- How much fits between `t` and `u`: the points of both queues, and steps of length 1. -/
noncomputable def twoPace (r : Fin 2 → ℝ) (rate : Fin 2 → ℝ → ℝ) (ω : Fin 2 → Draws) (u : ℝ) (t : WithTop ℝ) : ℕ :=
  ∑ i, (between (r i) (rate i) (ω i) u t).ncard + ⌈u - t.untopD u⌉₊

theorem twoNet_pace (hr : ∀ i, 0 < r i) (hp : ∀ i, Pos (ω i)) {u : ℝ}
    (hfin : ∀ i, {j | ∃ m x, Arrives (r i) (rate i) (ω i) 0 j m x ∧ x < u}.Finite) :
    Pace (twoNet r rate ω) (u : WithTop ℝ) (twoPace r rate ω u) := by
  have anti : ∀ s t : WithTop ℝ, s ≤ t → t < (u : WithTop ℝ) → ⌈u - t.untopD u⌉₊ ≤ ⌈u - s.untopD u⌉₊ := by
    intro s t hst ht
    have := NetSpec.pace_anti (δ := (1 : ℝ)) one_pos u s t hst ht
    simpa using this
  have one : ∀ t : WithTop ℝ, t + 1 < (u : WithTop ℝ) → twoPace r rate ω u (t + 1) < twoPace r rate ω u t := by
    intro t ht
    have := NetSpec.pace_key (δ := (1 : ℝ)) one_pos u (t + 1) t le_rfl ht
    simp only [div_one] at this
    exact Nat.add_lt_add_of_le_of_lt (Finset.sum_le_sum fun i _ => between_mono (hfin i) (le_add_one' t)) this
  have arr : ∀ (j : Fin 2) (i : ℕ) (t : WithTop ℝ), poisF (r j) (rate j) (ω j) i t < u →
      twoPace r rate ω u (poisF (r j) (rate j) (ω j) i t) < twoPace r rate ω u t := by
    intro j i t h
    rcases poisF_cases (r := r j) (rate := rate j) (ω := ω j) i t with ⟨m, x, m', x', rfl, h1, h2, h3⟩ | h3
    · rw [h3] at h ⊢
      have hxu : x' < u := by exact_mod_cast h
      have hle : ((x : ℝ) : WithTop ℝ) ≤ ((x' : ℝ) : WithTop ℝ) := by exact_mod_cast (arrives_lt (hr j) (hp j) h1 h2).le
      exact Nat.add_lt_add_of_lt_of_le (Finset.sum_lt_sum (fun i _ => between_mono (hfin i) hle)
        ⟨j, Finset.mem_univ j, between_lt (hr j) (hp j) (hfin j) h1 h2 hxu⟩) (anti _ _ hle h)
    · rw [h3] at h ⊢
      exact one t h
  refine ⟨fun s t h1 h2 => Nat.add_le_add (Finset.sum_le_sum fun i _ => between_mono (hfin i) h1) (anti s t h1 h2), ?_, ?_,
    fun _ => one⟩
  · intro k hk hs i t h
    rcases twoNet_cases hk with rfl | rfl | rfl <;> exact one t h
  · intro k hk hs i t h
    rcases twoNet_cases hk with rfl | rfl | rfl
    · exact arr 0 i t h
    · exact arr 1 i t h
    · exact one t h

/-- `initialize(queues=[0, 1])` and `simulate(t=u)` on the network of the example. -/
theorem two_run (hr : ∀ i, 0 < r i) (hp : ∀ i, Pos (ω i)) (hall : ∀ i j, ∃ m x, Arrives (r i) (rate i) (ω i) 0 j m x) {u : ℝ}
    (hfin : ∀ i, {j | ∃ m x, Arrives (r i) (rate i) (ω i) 0 j m x ∧ x < u}.Finite) :
    ∃ n, PoissonNet ℕ (fun i : Fin 2 => i.1) r rate ω u n := by
  set N := twoNet r rate ω with hNdef
  have hN : N.Ok := twoNet_ok hr hp
  have hpr : ∀ v, (twoProbs v).length = (N.outEdges v).length := by
    intro v
    match v with
    | 0 => rfl
    | 1 => rfl
    | 2 => rfl
    | _ + 3 => rfl
  have hnew : NetReach N (fun _ => true) (Net.init N (fun _ => true) true twoProbs) := .new _ _ hpr
  have hs : ∀ i : Fin 2, Simple (N.qc i.1) := by intro i; fin_cases i <;> exact .inl rfl
  have hk : ∀ i : Fin 2, i.1 < N.nE := by intro i; show i.1 < 3; omega
  have het : ∀ i : Fin 2, (N.qc i.1).edge.etype ≠ 0 := by intro i; fin_cases i <;> simp [hNdef, twoNet]
  have hact : ∀ i : Fin 2, (N.qc i.1).activeCap = .inf := by intro i; fin_cases i <;> rfl
  have hdea : ∀ i : Fin 2, (N.qc i.1).deactiveT = ⊤ := by intro i; fin_cases i <;> rfl
  have hmem : ∀ i : Fin 2, i.1 ∈ [0, 1] := by intro i; fin_cases i <;> simp
  have hf : ∀ i : Fin 2, Feeds (r i) (rate i) (ω i) (N.qc i.1).arrivalF := by
    intro i
    fin_cases i
    · exact poisF_feeds (r := r 0) (rate := rate 0) (ω := ω 0)
    · exact poisF_feeds (r := r 1) (rate := rate 1) (ω := ω 1)
  obtain ⟨n0, h0, hin, ht, -⟩ := NetSpec.C50_initialize hN.okA (by intro m hm; cases hm) hnew (fun l _ => l) (l := [0, 1]) (by simp)
    (by simpa using ⟨hk 0, hk 1⟩) (.inl rfl) ⟨0, by simp, het 0⟩
  have hr0 : NetReach N (fun _ => true) n0 := hnew.step (.initialise (fun l _ => l) (.queues [0, 1])) (.inl rfl) h0
  have ht0 : n0.t + (u : WithTop ℝ) = (u : WithTop ℝ) := by rw [ht]; exact zero_add _
  obtain ⟨fuel, n, h1, h2⟩ := NetSpec.C88_simulate_ends hN twoNet_noInf (u : WithTop ℝ) (φ := twoPace r rate ω u)
    (by rw [ht0]; exact twoNet_pace hr hp hfin) hr0 hin
  rw [ht0] at h2
  rw [Net.simulateT, if_pos hin] at h1
  obtain ⟨m, hm⟩ := stepsUntil_steps fuel h1
  have hsim : n0.simulate N m = .ok n := by rw [Net.simulate, if_pos hin]; exact hm
  have hlat : Later N n0 n := (Later.refl).simulate hN.okA hr0 m hsim
  refine ⟨n, .mk N _ _ _ _ [0, 1] n0 n hN.okA hpr (by simp) (by intro m hm; cases hm) h0 hlat hmem het hs hf (fun i => ?_) h2⟩
  obtain ⟨mm, x, hx, hc⟩ := exists_times (hall i)
  have hd := drawn_eq (hf i) hx hc
  obtain ⟨-, -, hst⟩ := NetSpec.started hN.okA hpr (l := [0, 1]) (by simp) (by intro m hm; cases hm) h0 (k := i.1) (hmem i)
    (het i) (hs i)
  have e1 : (N.qc i.1).arrivalF 0 0 < (⊤ : WithTop ℝ) := by
    have := hd 1
    rw [drawn, drawn] at this
    rw [this]; exact WithTop.coe_lt_top _
  rcases hst with ⟨g, -⟩ | ⟨g1, g2, g3, g4, g5, g6⟩
  · exact absurd e1 (not_lt.mpr (by rw [hdea i] at g; exact g))
  · refine NetSpec.C112_stays_active hN.okA rfl hr0 .refl (hk i) (hs i) (hact i) (hdea i) (fun j => ?_) (by rw [g2, hact i]; rfl) m hsim
    rw [g4, g5, ← NetSpec.drawn_succ _ 0, hd]
    exact WithTop.coe_lt_top _

/-- The hypotheses are met: two queues with independent draws and the rates `2 + sin (2 π x)`. -/
theorem C118_met (u : ℝ) (hu : 0 ≤ u) : ∃ n : (Fin 2 → Draws) → Net (WithTop ℝ) ℕ,
    (∀ i, AEMeasurable (fun x : Fin 2 → Draws => x i) (Measure.pi fun _ : Fin 2 => law)) ∧
    (∀ i, (Measure.pi fun _ : Fin 2 => law).map (fun x : Fin 2 → Draws => x i) = law) ∧
    iIndepFun (fun i (x : Fin 2 → Draws) => x i) (Measure.pi fun _ : Fin 2 => law) ∧
    ∀ᵐ x ∂Measure.pi fun _ : Fin 2 => law, PoissonNet ℕ (fun i : Fin 2 => i.1) (fun _ => 3)
      (fun _ x => 2 + Real.sin (2 * Real.pi * x)) x u (n x) := by
  obtain ⟨hR, hinf, -⟩ := C112_met u hu
  have hmap : ∀ i, (Measure.pi fun _ : Fin 2 => law).map (fun x : Fin 2 → Draws => x i) = law := fun i =>
    (measurePreserving_eval (fun _ : Fin 2 => law) i).map_eq
  have hae : ∀ᵐ x ∂Measure.pi fun _ : Fin 2 => law, ∃ n, PoissonNet ℕ (fun i : Fin 2 => i.1) (fun _ => 3)
      (fun _ x => 2 + Real.sin (2 * Real.pi * x)) x u n := by
    have h1 : ∀ᵐ x ∂Measure.pi fun _ : Fin 2 => law, ∀ i : Fin 2, Pos (x i) ∧
        (∀ j, ∃ m y, Arrives 3 (fun x => 2 + Real.sin (2 * Real.pi * x)) (x i) 0 j m y) ∧
        {j | ∃ m y, Arrives 3 (fun x => 2 + Real.sin (2 * Real.pi * x)) (x i) 0 j m y ∧ y < u}.Finite := by
      rw [ae_all_iff]
      intro i
      refine ae_of_ae_map (f := fun x : Fin 2 → Draws => x i) (measurable_pi_apply i).aemeasurable (p := fun ω : Draws => Pos ω ∧
        (∀ j, ∃ m y, Arrives 3 (fun x => 2 + Real.sin (2 * Real.pi * x)) ω 0 j m y) ∧
        {j | ∃ m y, Arrives 3 (fun x => 2 + Real.sin (2 * Real.pi * x)) ω 0 j m y ∧ y < u}.Finite) ?_
      rw [hmap i]
      filter_upwards [ae_pos, ae_return hR hinf, ae_finite hR hu] with ω g1 g2 g3
      exact ⟨g1, g2, g3⟩
    filter_upwards [h1] with x hx
    exact two_run (fun _ => hR.pos) (fun i => (hx i).1) (fun i => (hx i).2.1) (fun i => (hx i).2.2)
  classical
  refine ⟨fun x => if h : ∃ n, PoissonNet ℕ (fun i : Fin 2 => i.1) (fun _ => 3)
      (fun _ x => 2 + Real.sin (2 * Real.pi * x)) x u n then h.choose else Net.init (twoNet (fun _ => 3)
      (fun _ _ => 0) x) (fun _ => true) true twoProbs, fun i => (measurable_pi_apply i).aemeasurable, hmap,
    iIndepFun_pi (fun _ => aemeasurable_id), ?_⟩
  filter_upwards [hae] with x h
  rw [dif_pos h]
  exact h.choose_spec

/-- In that network nobody comes from outside to queue 0 until time 1, and exactly one agent to queue 1, with probability
`exp (-2) * (2 * exp (-2))`. The number of agents that come to either until time 1 is Poisson with mean 4. -/
example : ∃ (P : Measure (Fin 2 → Draws)) (n : (Fin 2 → Draws) → Net (WithTop ℝ) ℕ), P = Measure.pi (fun _ => law) ∧
    (∀ᵐ x ∂P, PoissonNet ℕ (fun i : Fin 2 => i.1) (fun _ => 3) (fun _ x => 2 + Real.sin (2 * Real.pi * x)) x 1 (n x)) ∧
    P.real {x | Came ((n x).qs 0).created 0 [(1, 0)] ∧ Came ((n x).qs 1).created 0 [(1, 1)]} =
      Real.exp (-2) * (2 * Real.exp (-2)) ∧
    P.real {x | CameAll (fun i : Fin 2 => ((n x).qs i.1).created) 0 [(1, 0)]} = Real.exp (-4) := by
  obtain ⟨n, h1, h2, h3, h4⟩ := C118_met 1 zero_le_one
  obtain ⟨hR, hinf, -⟩ := C112_met 1 zero_le_one
  have hint : ∫ x in (0 : ℝ)..1, (2 + Real.sin (2 * Real.pi * x)) = 2 := by
    rw [intervalIntegral.integral_add intervalIntegrable_const
      (Continuous.intervalIntegrable (by fun_prop) _ _),
      intervalIntegral.integral_comp_mul_left (fun x => Real.sin x) (by positivity : 2 * Real.pi ≠ 0)]
    simp
  refine ⟨_, n, rfl, h4, ?_, ?_⟩
  · have := C118_independent h1 h2 h3 (fun _ => hR) (fun _ => hinf) h4 (fun i => [(1, i.1)]) (fun _ => ⟨zero_le_one, trivial⟩)
      (by simp)
    rw [Fin.prod_univ_two] at this
    simp only [Fin.forall_fin_two] at this
    refine this.trans ?_
    simp [indepPoisson, hint, poissonMeasure_real_singleton]
    ring
  · rw [C118_total h1 h2 h3 (fun _ => hR) (fun _ => hinf) h4 [(1, 0)] ⟨zero_le_one, trivial⟩ (by simp)]
    have : ∫ x in (0 : ℝ)..1, ∑ _i : Fin 2, (2 + Real.sin (2 * Real.pi * x)) = 4 := by
      simp only [Fin.sum_univ_two]
      rw [intervalIntegral.integral_add (hR.integrable 0 1) (hR.integrable 0 1), hint]
      norm_num
    rw [indepPoisson, this]
    simp [indepPoisson, poissonMeasure_real_singleton]

end example_

end Verif.ThinSpec
