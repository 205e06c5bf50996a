import Verif.Props.QueueStream
import Verif.Props.Thinning2
import Verif.Props.NetPace
import Verif.Props.Net3
import Mathlib.Analysis.SpecialFunctions.Exp
import Mathlib.Analysis.SpecialFunctions.Integrals.Basic

/-!
# The agents from outside form a Poisson process (C112)

A queue whose `arrival_f` is `poisson_random_measure`, in a network that is simulated.
-/

namespace Verif.ThinSpec

open Verif MeasureTheory Set ProbabilityTheory Thin
open Verif.NetSpec (drawn Later C112_from_start)
open scoped ENNReal Topology

/-- `arrival_f` is `poisson_random_measure` with the draws `ω`: the calls, the first at time 0 and each of the others at
the time returned by the one before, return what `poisson_random_measure` returns. -/
def Feeds (r : ℝ) (rate : ℝ → ℝ) (ω : Draws) (f : ℕ → WithTop ℝ → WithTop ℝ) : Prop :=
  ∀ j m (x : ℝ) m' (x' : ℝ), Arrives r rate ω 0 j m x → Call r rate ω m x m' x' → f j x = x'

/-- `s` is the state of queue `k` in a network with clock past `u`, where it is active. On the new network,
`initialize(queues=l)` was called for different queues, among them `k`; then came any operations but `initialize` and `clear`.
The `arrival_f` of queue `k` is `poisson_random_measure` with the draws `ω`. -/
inductive PoissonRun (R : Type*) [LinearOrder R] [Add R] (r : ℝ) (rate : ℝ → ℝ) (ω : Draws) (k : ℕ) (u : ℝ) :
    QS (WithTop ℝ) → Prop
  | mk (N : NetCfg (WithTop ℝ) R) (b : ℕ → Bool) (bas : Bool) (probs : ℕ → List R) (pick : List ℕ → ℕ → List ℕ)
      (l : List ℕ) (n0 n : Net (WithTop ℝ) R) : N.OkA → (∀ v, (probs v).length = (N.outEdges v).length) → l.Nodup →
      (∀ m, N.maxAgents = .fin m → (l.length : ℤ) ≤ m) →
      (Net.init N b bas probs).initialise N pick (.queues l) = .ok n0 → Later N n0 n → k ∈ l →
      (N.qc k).edge.etype ≠ 0 → Simple (N.qc k) → Feeds r rate ω (N.qc k).arrivalF → (n.qs k).active = true →
      u ≤ n.t → PoissonRun R r rate ω k u (n.qs k)

/-- `k₁` of the agents created for the queue come in `(a, s₁]`, `k₂` in `(s₁, s₂]`, and so on. -/
def Came (l : List ((ℕ × ℕ) × WithTop ℝ)) : ℝ → List (ℝ × ℕ) → Prop
  | _, [] => True
  | a, (s, k) :: L => l.countP (fun p => decide ((a : WithTop ℝ) < p.2 ∧ p.2 ≤ (s : WithTop ℝ))) = k ∧ Came l s L

section path

variable {r : ℝ} {rate : ℝ → ℝ} {ω : Draws}

theorem arrives_lt (hr : 0 < r) (hp : Pos ω) {t : ℝ} {j m : ℕ} {x : ℝ} {m' : ℕ} {x' : ℝ} (h : Arrives r rate ω t j m x)
    (hc : Call r rate ω m x m' x') : x < x' := by
  classical
  obtain ⟨rfl, -, -⟩ := (arrives_iff j m x).mp h
  obtain ⟨n, -, rfl, -, -⟩ := (call_iff m m' x').mp hc
  have hm : StrictMono (pt r ω t) := strictMono_nat_of_lt_succ fun i => by
    rw [pt_succ]
    have : 0 < 1 / r * (ω i).1 := mul_pos (by positivity) (hp i)
    linarith
  exact hm (show m < m + n + 1 by omega)

theorem arrives_unique {t : ℝ} {j m m' : ℕ} {x x' : ℝ} (h : Arrives r rate ω t j m x) (h' : Arrives r rate ω t j m' x') :
    m = m' ∧ x = x' := by
  classical
  obtain ⟨rfl, hj, ha⟩ := (arrives_iff j m x).mp h
  obtain ⟨rfl, hj', ha'⟩ := (arrives_iff j m' x').mp h'
  suffices m = m' from ⟨this, by rw [this]⟩
  cases m with
  | zero =>
    cases m' with
    | zero => rfl
    | succ n' => rw [Nat.count_zero] at hj; rw [Nat.count_succ, if_pos (ha' n' rfl)] at hj'; omega
  | succ n =>
    rw [Nat.count_succ, if_pos (ha n rfl)] at hj
    cases m' with
    | zero => rw [Nat.count_zero] at hj'; omega
    | succ n' =>
      rw [Nat.count_succ, if_pos (ha' n' rfl)] at hj'
      rw [Nat.count_injective (ha n rfl) (ha' n' rfl) (by omega)]

/-- The times returned, if every call returns. -/
theorem exists_times (hall : ∀ j, ∃ m x, Arrives r rate ω 0 j m x) :
    ∃ (m : ℕ → ℕ) (x : ℕ → ℝ), (∀ j, Arrives r rate ω 0 j (m j) (x j)) ∧
      ∀ j, Call r rate ω (m j) (x j) (m (j + 1)) (x (j + 1)) := by
  choose m x h using hall
  refine ⟨m, x, h, fun j => ?_⟩
  have := h (j + 1)
  generalize m (j + 1) = m' at this ⊢
  generalize x (j + 1) = x' at this ⊢
  cases this with
  | call h1 h2 =>
    obtain ⟨rfl, rfl⟩ := arrives_unique h1 (h j)
    exact h2

theorem drawn_eq {f : ℕ → WithTop ℝ → WithTop ℝ} (hf : Feeds r rate ω f) {m : ℕ → ℕ} {x : ℕ → ℝ}
    (h : ∀ j, Arrives r rate ω 0 j (m j) (x j)) (hc : ∀ j, Call r rate ω (m j) (x j) (m (j + 1)) (x (j + 1))) (j : ℕ) :
    drawn f 0 0 j = x j := by
  induction j with
  | zero =>
    obtain ⟨-, h0⟩ := arrives_unique (h 0) Arrives.start
    rw [h0]; rfl
  | succ j ih => rw [drawn, ih, Nat.zero_add]; exact hf j _ _ _ _ (h j) (hc j)

theorem encard_range (P : ℕ → Prop) [DecidablePred P] (M : ℕ) (hP : ∀ i, P i → i < M) :
    {i | P i}.encard = ((List.range M).countP fun i => decide (P i) : ℕ) := by
  have : {i | P i} = ↑((Finset.range M).filter P) := by
    ext i
    simp only [mem_ofPred_eq, Finset.coe_filter, Finset.mem_range]
    exact ⟨fun h => ⟨hP i h, h⟩, fun h => h.2⟩
  rw [this, encard_coe_eq_coe_finsetCard]
  congr 1
  rw [List.countP_eq_length_filter]
  rfl

/-- Among the agents created are all those whose time is not after `u`. -/
theorem PoissonRun.counts {R : Type*} [LinearOrder R] [Add R] {k : ℕ} {u : ℝ} {s : QS (WithTop ℝ)} (hr : 0 < r)
    (hp : Pos ω) (hall : ∀ j, ∃ m x, Arrives r rate ω 0 j m x) (h : PoissonRun R r rate ω k u s) (L : List (ℝ × ℕ))
    (hL : ∀ p ∈ L, p.1 ≤ u) (a : ℝ) : Came s.created a L ↔ Counts r rate ω 0 a L := by
  obtain ⟨N, b, bas, probs, pick, l, n0, n, hN, hpr, hl, hm, h0, hlat, hk, het, hs, hf, hact, hu⟩ := h
  obtain ⟨m, x, hx, hc⟩ := exists_times hall
  have hd := drawn_eq hf hx hc
  obtain ⟨c1, c2⟩ := C112_from_start hN hpr hl hm h0 hlat hk het hs
  obtain ⟨c3, c4, -⟩ := c2 hact
  simp only [hd] at c1 c4
  have hmono : StrictMono x := strictMono_nat_of_lt_succ fun i => arrives_lt hr hp (hx i) (hc i)
  have hone : ∀ a s : ℝ, s ≤ u → (((n.qs k).created.countP fun p => decide ((a : WithTop ℝ) < p.2 ∧ p.2 ≤ (s : WithTop ℝ)) : ℕ) : ℕ∞) =
      (arrivals r rate ω 0 a s).encard := by
    intro a s hsu
    have e : arrivals r rate ω 0 a s = {i | a < x (i + 1) ∧ x (i + 1) ≤ s} := by
      ext i
      simp only [arrivals, mem_ofPred_eq]
      constructor
      · rintro ⟨m', x', h1, h2⟩
        obtain ⟨-, rfl⟩ := arrives_unique h1 (hx (i + 1))
        exact h2
      · intro h2; exact ⟨_, _, hx (i + 1), h2⟩
    rw [e, encard_range (fun i => a < x (i + 1) ∧ x (i + 1) ≤ s) (n.qs k).oArrivals, c1, List.countP_map]
    · congr 1
      refine List.countP_congr fun i _ => ?_
      simp [Function.comp]
    · intro i hi
      by_contra hlt
      have h1 : x (n.qs k).oArrivals < x (i + 1) := hmono (by omega)
      have h2 : (u : WithTop ℝ) ≤ x (n.qs k).oArrivals := hu.trans c4
      have h3 : u ≤ x (n.qs k).oArrivals := by exact_mod_cast h2
      linarith [hi.2]
  induction L generalizing a with
  | nil => rfl
  | cons y L ih =>
    obtain ⟨s, k'⟩ := y
    have h1 := ih (fun p hp => hL p (by simp [hp])) s
    simp only [Came, Counts, ← hone a s (hL (s, k') (by simp)), Nat.cast_inj, h1]

end path

section main

variable {r : ℝ} {rate : ℝ → ℝ}

/-- If the total rate is infinite, all the calls return, almost surely. -/
theorem ae_return (h : Rate rate r) (hinf : Filter.Tendsto (fun s => ∫ x in (0 : ℝ)..s, rate x) Filter.atTop Filter.atTop) :
    ∀ᵐ ω ∂law, ∀ j, ∃ m x, Arrives r rate ω 0 j m x := by
  rw [ae_all_iff]
  intro j
  -- the first `j` calls return if one more does
  have back : ∀ {ω : Draws} {i m x}, Arrives r rate ω 0 i m x → j ≤ i → ∃ m x, Arrives r rate ω 0 j m x := by
    intro ω i m x hx hij
    induction hx with
    | start => obtain rfl : j = 0 := by omega
               exact ⟨_, _, .start⟩
    | @call i m x m' x' h1 h2 ih =>
      rcases Nat.lt_or_ge i j with hlt | hge
      · obtain rfl : j = i + 1 := by omega
        exact ⟨_, _, .call h1 h2⟩
      · exact ih hge
  have hle : ∀ s : ℝ, 0 ≤ s → law.real {ω | ¬∃ m x, Arrives r rate ω 0 j m x} ≤
      ∑ i ∈ Finset.range (j + 1), (∫ x in (0 : ℝ)..s, rate x) ^ i * Real.exp (-∫ x in (0 : ℝ)..s, rate x) / i.factorial := by
    intro s hs
    have hsub : {ω | ¬∃ m x, Arrives r rate ω 0 j m x} ⊆
        ⋃ i ∈ Finset.range (j + 1), {ω | (arrivals r rate ω 0 0 s).encard = (i : ℕ)} := by
      intro ω hω
      have h1 : arrivals r rate ω 0 0 s ⊆ Iio j := by
        rintro i ⟨m, x, h1, -⟩
        by_contra hi
        exact hω (back h1 (by simp only [mem_Iio, not_lt] at hi; omega))
      have h2 : (arrivals r rate ω 0 0 s).encard ≤ j := by
        refine (encard_le_encard h1).trans (le_of_eq ?_)
        rw [← Finset.coe_range, encard_coe_eq_coe_finsetCard, Finset.card_range]
      obtain ⟨i, hi⟩ := ENat.ne_top_iff_exists.mp (h2.trans_lt (ENat.natCast_lt_top j)).ne
      rw [← hi] at h2
      simp only [mem_iUnion, Finset.mem_range]
      exact ⟨i, by have : i ≤ j := by exact_mod_cast h2
                   omega, hi.symm⟩
    refine (measureReal_mono hsub (measure_ne_top _ _)).trans ((measureReal_biUnion_finset_le _ _).trans ?_)
    refine Finset.sum_le_sum fun i _ => le_of_eq ?_
    rw [C95_count h le_rfl hs i, poissonMeasure_real_singleton, Real.coe_toNNReal _ (int_nonneg h hs)]
    ring
  have hlim : Filter.Tendsto (fun s : ℝ => ∑ i ∈ Finset.range (j + 1),
      (∫ x in (0 : ℝ)..s, rate x) ^ i * Real.exp (-∫ x in (0 : ℝ)..s, rate x) / i.factorial) Filter.atTop (𝓝 0) := by
    have key : Filter.Tendsto (fun s : ℝ => ∑ i ∈ Finset.range (j + 1),
        (∫ x in (0 : ℝ)..s, rate x) ^ i * Real.exp (-∫ x in (0 : ℝ)..s, rate x) / i.factorial) Filter.atTop
        (𝓝 (∑ i ∈ Finset.range (j + 1), 0 / (i.factorial : ℝ))) :=
      tendsto_finsetSum _ fun i _ => Filter.Tendsto.div_const
        ((Real.tendsto_pow_mul_exp_neg_atTop_nhds_zero i).comp hinf) _
    simpa only [zero_div, Finset.sum_const_zero] using key
  have h0 : law.real {ω | ¬∃ m x, Arrives r rate ω 0 j m x} ≤ 0 :=
    ge_of_tendsto hlim (Filter.eventually_atTop.mpr ⟨0, hle⟩)
  have h1 := le_antisymm h0 measureReal_nonneg
  rw [measureReal_def, ENNReal.toReal_eq_zero_iff] at h1
  exact h1.resolve_right (measure_ne_top _ _)

/-- C112: let the `arrival_f` of queue `k` be `poisson_random_measure`, with a measurable rate function that has values in
`[0, rate_max]` and infinite integral. For almost every outcome of the draws let `s ω` be the state of the queue in a
network which, started by `initialize`, has come past time `u`, the queue still being active. The network and what is done
to it may depend on the draws in any way. Then the agents that come to the queue from outside until `u` form a Poisson
process: their numbers in consecutive intervals are independent, and Poisson with the integrals of the rate. -/
theorem C112_poisson {R : Type*} [LinearOrder R] [Add R] (h : Rate rate r)
    (hinf : Filter.Tendsto (fun s => ∫ x in (0 : ℝ)..s, rate x) Filter.atTop Filter.atTop) {k : ℕ} {u : ℝ}
    {s : Draws → QS (WithTop ℝ)} (hs : ∀ᵐ ω ∂law, PoissonRun R r rate ω k u (s ω)) (L : List (ℝ × ℕ)) (hi : Incr 0 L)
    (hL : ∀ p ∈ L, p.1 ≤ u) :
    law.real {ω | Came (s ω).created 0 L} = indepPoisson rate 0 L := by
  rw [← C95_poisson h 0 L hi, measureReal_def, measureReal_def]
  congr 1
  refine measure_congr ?_
  filter_upwards [ae_pos, ae_return h hinf, hs] with ω h1 h2 h3
  exact propext (h3.counts h.pos h1 h2 L hL 0)

end main

/-! ## Example -/

section example_

variable {r : ℝ} {rate : ℝ → ℝ} {σ : ℕ → ℝ} {ω : Draws}

open Classical in
/-- `poisson_random_measure` with the draws `ω`; `t + 1` if it is not called in turn. -/
noncomputable def poisF (r : ℝ) (rate : ℝ → ℝ) (ω : Draws) (j : ℕ) (t : WithTop ℝ) : WithTop ℝ :=
  if h : ∃ m x m' x', t = ((x : ℝ) : WithTop ℝ) ∧ Arrives r rate ω 0 j m x ∧ Call r rate ω m x m' x'
  then ((h.choose_spec.choose_spec.choose_spec.choose : ℝ) : WithTop ℝ)
  else t + 1

theorem poisF_cases (j : ℕ) (t : WithTop ℝ) : (∃ m x m' x', t = ((x : ℝ) : WithTop ℝ) ∧ Arrives r rate ω 0 j m x ∧
      Call r rate ω m x m' x' ∧ poisF r rate ω j t = ((x' : ℝ) : WithTop ℝ)) ∨ poisF r rate ω j t = t + 1 := by
  unfold poisF
  split
  · rename_i h
    left
    obtain ⟨h1, h2, h3⟩ := h.choose_spec.choose_spec.choose_spec.choose_spec
    exact ⟨_, _, _, _, h1, h2, h3, rfl⟩
  · right; rfl

theorem poisF_feeds : Feeds r rate ω (poisF r rate ω) := by
  intro j m x m' x' h1 h2
  unfold poisF
  have h : ∃ m y m' x', (x : WithTop ℝ) = ((y : ℝ) : WithTop ℝ) ∧ Arrives r rate ω 0 j m y ∧ Call r rate ω m y m' x' :=
    ⟨m, x, m', x', rfl, h1, h2⟩
  rw [dif_pos h]
  obtain ⟨-, g2, g3⟩ := h.choose_spec.choose_spec.choose_spec.choose_spec
  obtain ⟨-, h4⟩ := arrives_unique (h1.call h2) (g2.call g3)
  rw [← h4]

/-- Queue 0 leads to the NullQueue 1. It has infinitely many servers, the `i`-th service takes time `σ i`. -/
noncomputable def poisNet (r : ℝ) (rate : ℝ → ℝ) (σ : ℕ → ℝ) (ω : Draws) : NetCfg (WithTop ℝ) ℕ where
  nE := 2
  qc k := match k with
    | 0 => { kind := .server, edge := ⟨0, 1, 0, 1⟩, servers := .inf, arrivalF := poisF r rate ω
             serviceF := fun i t => t + (σ i : WithTop ℝ), factory := .plain, activeCap := .inf, deactiveT := ⊤
             buffer := .inf, maxServers := .inf }
    | _ => { kind := .null, edge := ⟨1, 2, k, 0⟩, servers := .inf, arrivalF := fun _ t => t + 1
             serviceF := fun _ t => t + 1, factory := .plain, activeCap := .inf, deactiveT := ⊤, buffer := .inf
             maxServers := .inf }
  outEdges v := match v with
    | 0 => [0]
    | 1 => [1]
    | _ => []
  maxAgents := .inf
  unif _ := 0
  jit _ t := t + 1
  garbage _ _ := (0, 0)

def poisProbs (v : ℕ) : List ℕ := match v with
  | 0 => [1]
  | 1 => [1]
  | _ => []

theorem poisNet_cases {k : ℕ} (hk : k < (poisNet r rate σ ω).nE) : k = 0 ∨ k = 1 := by
  have : k < 2 := hk
  omega

theorem le_add_nonneg {x : ℝ} (hx : 0 ≤ x) (t : WithTop ℝ) : t ≤ t + (x : WithTop ℝ) := by
  cases t with
  | top => exact le_rfl
  | coe t => exact_mod_cast (by linarith : t ≤ t + x)

theorem le_add_one' (t : WithTop ℝ) : t ≤ t + 1 := by
  cases t with
  | top => exact le_rfl
  | coe t => exact_mod_cast (by linarith : t ≤ t + 1)

theorem poisF_ge (hr : 0 < r) (hp : Pos ω) (j : ℕ) (t : WithTop ℝ) : t ≤ poisF r rate ω j t := by
  rcases poisF_cases (r := r) (rate := rate) (ω := ω) j t with ⟨m, x, m', x', rfl, h1, h2, h3⟩ | h
  · rw [h3]; exact_mod_cast (arrives_lt hr hp h1 h2).le
  · rw [h]; exact le_add_one' t

theorem poisNet_ok (hr : 0 < r) (hp : Pos ω) (hσ : ∀ i, 0 ≤ σ i) : (poisNet r rate σ ω).Ok where
  idx := by intro k hk; rcases poisNet_cases hk with rfl | rfl <;> rfl
  kinds := by intro k hk; rcases poisNet_cases hk with rfl | rfl <;> simp [poisNet, Simple]
  fwd := by
    intro k hk
    rcases poisNet_cases hk with rfl | rfl
    · exact ⟨poisF_ge hr hp, fun i => le_add_nonneg (hσ i)⟩
    · exact ⟨fun _ => le_add_one', fun _ => le_add_one'⟩
  out := by intro k hk; rcases poisNet_cases hk with rfl | rfl <;> simp [poisNet, Simple]
  outLt := by intro k hk; rcases poisNet_cases hk with rfl | rfl <;> simp [poisNet, Simple]
  jit := fun _ => le_add_one'

theorem poisNet_noInf : (poisNet r rate σ ω).NoInf := by
  right
  intro k hk
  rcases poisNet_cases hk with rfl | rfl <;> simp [poisNet, Simple]

/-- How much fits between `t` and `u`: the times returned by `poisson_random_measure`, and steps of length 1. -/
noncomputable def poisPace (r : ℝ) (rate : ℝ → ℝ) (ω : Draws) (u : ℝ) (t : WithTop ℝ) : ℕ :=
  {j | ∃ m x, Arrives r rate ω 0 j m x ∧ t < ((x : ℝ) : WithTop ℝ) ∧ x < u}.ncard + ⌈u - t.untopD u⌉₊

theorem poisNet_pace (hr : 0 < r) (hp : Pos ω) (hσ : ∀ i, 1 ≤ σ i) {u : ℝ}
    (hfin : {j | ∃ m x, Arrives r rate ω 0 j m x ∧ x < u}.Finite) : Pace (poisNet r rate σ ω) (u : WithTop ℝ) (poisPace r rate ω u) := by
  have sub : ∀ s t : WithTop ℝ, s ≤ t → {j | ∃ m x, Arrives r rate ω 0 j m x ∧ t < ((x : ℝ) : WithTop ℝ) ∧ x < u}.ncard ≤
      {j | ∃ m x, Arrives r rate ω 0 j m x ∧ s < ((x : ℝ) : WithTop ℝ) ∧ x < u}.ncard := by
    intro s t hst
    refine ncard_le_ncard ?_ (hfin.subset ?_)
    · rintro j ⟨m, x, h1, h2, h3⟩; exact ⟨m, x, h1, hst.trans_lt h2, h3⟩
    · rintro j ⟨m, x, h1, h2, h3⟩; exact ⟨m, x, h1, h3⟩
  have anti : ∀ s t : WithTop ℝ, s ≤ t → t < (u : WithTop ℝ) → ⌈u - t.untopD u⌉₊ ≤ ⌈u - s.untopD u⌉₊ := by
    intro s t hst ht
    have := NetSpec.pace_anti (δ := (1 : ℝ)) one_pos u s t hst ht
    simpa using this
  have far : ∀ t t' : WithTop ℝ, t + 1 ≤ t' → t' < (u : WithTop ℝ) → poisPace r rate ω u t' < poisPace r rate ω u t := by
    intro t t' h1 ht
    have := NetSpec.pace_key (δ := (1 : ℝ)) one_pos u t' t h1 ht
    simp only [div_one] at this
    exact Nat.add_lt_add_of_le_of_lt (sub _ _ ((le_add_one' t).trans h1)) this
  have one : ∀ t : WithTop ℝ, t + 1 < (u : WithTop ℝ) → poisPace r rate ω u (t + 1) < poisPace r rate ω u t :=
    fun t ht => far t _ le_rfl ht
  refine ⟨fun s t h1 h2 => Nat.add_le_add (sub s t h1) (anti s t h1 h2), ?_, ?_, fun _ => one⟩
  · intro k hk hs i t h
    rcases poisNet_cases hk with rfl | rfl
    · refine far t _ ?_ h
      exact add_le_add_right (a := t) (by exact_mod_cast hσ i)
    · exact one t h
  · intro k hk hs i t h
    rcases poisNet_cases hk with rfl | rfl
    swap
    · exact one t h
    rcases poisF_cases (r := r) (rate := rate) (ω := ω) i t with ⟨m, x, m', x', rfl, h1, h2, h3⟩ | h3
    · have h : poisF r rate ω i x < u := h
      show poisPace r rate ω u (poisF r rate ω i x) < _
      rw [h3] at h ⊢
      have hxu : x' < u := by exact_mod_cast h
      have hlt := arrives_lt hr hp h1 h2
      refine Nat.add_lt_add_of_lt_of_le (ncard_lt_ncard ?_ (hfin.subset ?_)) (anti _ _ (by exact_mod_cast hlt.le) h)
      · refine (ssubset_iff_of_subset ?_).mpr ⟨i + 1, ⟨m', x', h1.call h2, by exact_mod_cast hlt, hxu⟩, ?_⟩
        · rintro j ⟨m, y, g1, g2, g3⟩; exact ⟨m, y, g1, lt_trans (by exact_mod_cast hlt) g2, g3⟩
        · rintro ⟨m1, y, g1, g2, -⟩
          obtain ⟨-, rfl⟩ := arrives_unique g1 (h1.call h2)
          exact lt_irrefl _ g2
      · rintro j ⟨m, x, h1, h2, h3⟩; exact ⟨m, x, h1, h3⟩
    · have h : poisF r rate ω i t < u := h
      show poisPace r rate ω u (poisF r rate ω i t) < _
      rw [h3] at h ⊢
      exact one t h

theorem stepsUntil_steps {T R : Type*} [LinearOrder T] [OrderTop T] [Zero T] [LinearOrder R] [Add R] {N : NetCfg T R} {u : T}
    (fuel : ℕ) : ∀ {n n' : Net T R}, n.stepsUntil N u fuel = some (.ok n') → ∃ m, n.steps N m = .ok n' := by
  induction fuel with
  | zero =>
    intro n n' h
    unfold Net.stepsUntil at h
    split at h
    · simp at h
    · simp only [Option.some.injEq] at h; exact ⟨0, h⟩
  | succ fuel ih =>
    intro n n' h
    unfold Net.stepsUntil at h
    split at h
    · split at h
      · simp at h
      · rename_i n1 h1
        obtain ⟨m, hm⟩ := ih h
        exact ⟨m + 1, by rw [Net.steps, h1]; exact hm⟩
    · simp only [Option.some.injEq] at h; exact ⟨0, h⟩

/-- `initialize(queues=0)` and `simulate(t=u)` on the network of the example. -/
theorem pois_run (hr : 0 < r) (hp : Pos ω) (hall : ∀ j, ∃ m x, Arrives r rate ω 0 j m x) {u : ℝ}
    (hfin : {j | ∃ m x, Arrives r rate ω 0 j m x ∧ x < u}.Finite) : ∃ s, PoissonRun ℕ r rate ω 0 u s := by
  set N := poisNet r rate (fun _ => 1) ω with hNdef
  have hN : N.Ok := poisNet_ok hr hp fun _ => zero_le_one
  have hpr : ∀ v, (poisProbs v).length = (N.outEdges v).length := by
    intro v
    match v with
    | 0 => rfl
    | 1 => rfl
    | _ + 2 => rfl
  have hnew : NetReach N (fun _ => true) (Net.init N (fun _ => true) true poisProbs) := .new _ _ hpr
  have hs : Simple (N.qc 0) := .inl rfl
  have hk : 0 < N.nE := by show 0 < 2; omega
  have het : (N.qc 0).edge.etype ≠ 0 := by simp [hNdef, poisNet]
  obtain ⟨n0, h0, hin, ht, -⟩ := NetSpec.C50_initialize hN.okA (by intro m hm; cases hm) hnew (fun l _ => l) (l := [0]) (by simp)
    (by simpa using hk) (.inl rfl) ⟨0, by simp, het⟩
  have hr0 : NetReach N (fun _ => true) n0 := hnew.step (.initialise (fun l _ => l) (.queues [0])) (.inl rfl) h0
  have ht0 : n0.t + (u : WithTop ℝ) = (u : WithTop ℝ) := by rw [ht]; exact zero_add _
  obtain ⟨fuel, n, h1, h2⟩ := NetSpec.C88_simulate_ends hN poisNet_noInf (u : WithTop ℝ) (φ := poisPace r rate ω u)
    (by rw [ht0]; exact poisNet_pace hr hp (fun _ => le_rfl) hfin) hr0 hin
  rw [ht0] at h2
  rw [Net.simulateT, if_pos hin] at h1
  obtain ⟨m, hm⟩ := stepsUntil_steps fuel h1
  have hsim : n0.simulate N m = .ok n := by rw [Net.simulate, if_pos hin]; exact hm
  have hlat : Later N n0 n := (Later.refl).simulate hN.okA hr0 m hsim
  obtain ⟨mm, x, hx, hc⟩ := exists_times hall
  have hf : Feeds r rate ω (N.qc 0).arrivalF := poisF_feeds
  have hd := drawn_eq hf hx hc
  obtain ⟨-, -, hst⟩ := NetSpec.started hN.okA hpr (l := [0]) (by simp) (by intro m hm; cases hm) h0 (k := 0) (by simp)
    het hs
  have hact : (n.qs 0).active = true := by
    have e1 : (N.qc 0).arrivalF 0 0 < (⊤ : WithTop ℝ) := by
      have := hd 1
      rw [drawn, drawn] at this
      rw [this]; exact WithTop.coe_lt_top _
    rcases hst with ⟨g, -⟩ | ⟨g1, g2, g3, g4, g5, g6⟩
    · exact absurd e1 (not_lt.mpr g)
    · refine NetSpec.C112_stays_active hN.okA rfl hr0 .refl hk hs rfl rfl (fun i => ?_) (by rw [g2]; rfl) m hsim
      rw [g4, g5, ← NetSpec.drawn_succ _ 0, hd]
      exact WithTop.coe_lt_top _
  exact ⟨_, .mk N _ _ _ _ [0] n0 n hN.okA hpr (by simp) (by intro m hm; cases hm) h0 hlat (by simp)
    het hs hf hact h2⟩

theorem ae_finite (h : Rate rate r) {u : ℝ} (hu : 0 ≤ u) :
    ∀ᵐ ω ∂law, {j | ∃ m x, Arrives r rate ω 0 j m x ∧ x < u}.Finite := by
  have hd : Pairwise (Function.onFun Disjoint fun k' : ℕ => {ω | (arrivals r rate ω 0 0 u).encard = k'}) := by
    intro i j hij
    rw [Function.onFun, disjoint_left]
    intro ω h1 h2
    exact hij (by exact_mod_cast (h1 : (arrivals r rate ω 0 0 u).encard = i).symm.trans h2)
  have hm := fun k' : ℕ => measurableSet_arrivals (r := r) h.meas 0 0 u k'
  have hall : law (⋃ k' : ℕ, {ω | (arrivals r rate ω 0 0 u).encard = k'}) = 1 := by
    rw [measure_iUnion hd hm, ← tsum_poisson (∫ x in (0 : ℝ)..u, rate x).toNNReal]
    refine tsum_congr fun k' => ?_
    have := C95_count h le_rfl hu k'
    rw [measureReal_def, measureReal_def] at this
    exact (ENNReal.toReal_eq_toReal_iff' (measure_ne_top _ _) (measure_ne_top _ _)).mp this
  have hnull : ∀ᵐ ω ∂law, ω ∈ ⋃ k' : ℕ, {ω | (arrivals r rate ω 0 0 u).encard = k'} :=
    (prob_compl_eq_zero_iff (MeasurableSet.iUnion hm)).mpr hall
  filter_upwards [hnull, ae_pos] with ω hω hp
  obtain ⟨k', hk'⟩ := mem_iUnion.mp hω
  have h1 : (arrivals r rate ω 0 0 u).Finite := finite_of_encard_eq_coe hk'
  refine ((h1.image (· + 1)).union (finite_singleton 0)).subset ?_
  rintro j ⟨m, x, h2, h3⟩
  cases h2 with
  | start => right; rfl
  | @call j m0 y _ _ g1 g2 =>
    left
    have hpos : 0 < x := by
      have : 0 ≤ y := by
        clear g2 h3
        induction g1 with
        | start => exact le_rfl
        | call a1 a2 ih => exact ih.trans (arrives_lt h.pos hp a1 a2).le
      exact this.trans_lt (arrives_lt h.pos hp g1 g2)
    exact ⟨j, ⟨_, _, g1.call g2, hpos, h3.le⟩, rfl⟩

/-- The hypotheses of `C112_poisson` are met, for every `u`: the rate is `2 + sin (2 π x)`. -/
theorem C112_met (u : ℝ) (hu : 0 ≤ u) : Rate (fun x => 2 + Real.sin (2 * Real.pi * x)) 3 ∧
    Filter.Tendsto (fun s => ∫ x in (0 : ℝ)..s, (2 + Real.sin (2 * Real.pi * x))) Filter.atTop Filter.atTop ∧
    ∃ s : Draws → QS (WithTop ℝ), ∀ᵐ ω ∂law, PoissonRun ℕ 3 (fun x => 2 + Real.sin (2 * Real.pi * x)) ω 0 u (s ω) := by
  have hR := C95_met.1
  have hinf : Filter.Tendsto (fun s => ∫ x in (0 : ℝ)..s, (2 + Real.sin (2 * Real.pi * x))) Filter.atTop Filter.atTop := by
    refine Filter.tendsto_atTop_mono' _ (Filter.eventually_atTop.mpr ⟨0, fun s hs => ?_⟩) Filter.tendsto_id
    have h1 : ∫ _ in (0 : ℝ)..s, (1 : ℝ) = s := by simp
    calc id s = ∫ _ in (0 : ℝ)..s, (1 : ℝ) := h1.symm
      _ ≤ _ := intervalIntegral.integral_mono_on hs intervalIntegrable_const (hR.integrable 0 s) fun x _ => by
        linarith [Real.neg_one_le_sin (2 * Real.pi * x)]
  refine ⟨hR, hinf, ?_⟩
  have hae : ∀ᵐ ω ∂law, ∃ s, PoissonRun ℕ 3 (fun x => 2 + Real.sin (2 * Real.pi * x)) ω 0 u s := by
    filter_upwards [ae_pos, ae_return hR hinf, ae_finite hR hu] with ω h1 h2 h3
    exact pois_run hR.pos h1 h2 h3
  classical
  refine ⟨fun ω => if h : ∃ s, PoissonRun ℕ 3 (fun x => 2 + Real.sin (2 * Real.pi * x)) ω 0 u s then h.choose
    else QS.init ((poisNet 3 (fun _ => 0) (fun _ => 1) ω).qc 0) true, ?_⟩
  filter_upwards [hae] with ω h
  rw [dif_pos h]
  exact h.choose_spec

/-- In that network the number of agents that come from outside until time 1 is Poisson with mean 2, so nobody comes
with probability `exp (-2)`. -/
example : ∃ s : Draws → QS (WithTop ℝ), (∀ᵐ ω ∂law, PoissonRun ℕ 3 (fun x => 2 + Real.sin (2 * Real.pi * x)) ω 0 1 (s ω)) ∧
    law.real {ω | Came (s ω).created 0 [(1, 0)]} = Real.exp (-2) := by
  obtain ⟨h1, h2, s, h3⟩ := C112_met 1 zero_le_one
  refine ⟨s, h3, ?_⟩
  rw [C112_poisson h1 h2 h3 [(1, 0)] ⟨zero_le_one, trivial⟩ (by simp)]
  have hint : ∫ x in (0 : ℝ)..1, (2 + Real.sin (2 * Real.pi * x)) = 2 := by
    rw [intervalIntegral.integral_add intervalIntegrable_const
      (Continuous.intervalIntegrable (by fun_prop) _ _),
      intervalIntegral.integral_comp_mul_left (fun x => Real.sin x) (by positivity : 2 * Real.pi ≠ 0)]
    simp
  simp [indepPoisson, hint, poissonMeasure_real_singleton]

end example_

end Verif.ThinSpec
