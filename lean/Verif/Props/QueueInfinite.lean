import Verif.Props.QueueFree
import Verif.Props.Marked
import Verif.Props.NetDrain

/-!
# The law of a queue with a server for everybody (C121)

A queue with `num_servers` infinite whose `arrival_f` is `poisson_random_measure` and whose services take independent times
with one law.
-/

namespace Verif.ThinSpec

open Verif MeasureTheory Set ProbabilityTheory Thin
open Verif.NetSpec (drawn Later LaterFree Alone comes leaves C121_path)
open scoped ENNReal Topology

/-- The `i`-th service takes the time `σ i`. -/
def Serves (σ : ℕ → ℝ) (f : ℕ → WithTop ℝ → WithTop ℝ) : Prop := ∀ i (t : ℝ), f i t = ((t + σ i : ℝ) : WithTop ℝ)

/-- `s` is the state of queue `k` at time `u`, between events of the network, where the queue is active. On the new network,
`initialize(queues=l)` was called for different queues, among them `k`; then came any operations but `initialize`, `clear`
and `set_num_servers` on queue `k`. Queue `k` has infinitely many servers, nobody moves into it and nobody is kept from
leaving it. Its `arrival_f` is `poisson_random_measure` with the draws `ω`, its services take the times `σ`. -/
inductive ServedRun (R : Type*) [LinearOrder R] [Add R] (r : ℝ) (rate : ℝ → ℝ) (ω : Draws) (σ : ℕ → ℝ) (k : ℕ) (u : ℝ) :
    QS (WithTop ℝ) → Prop
  | mk (N : NetCfg (WithTop ℝ) R) (b : ℕ → Bool) (bas : Bool) (probs : ℕ → List R) (pick : List ℕ → ℕ → List ℕ)
      (l : List ℕ) (n0 n : Net (WithTop ℝ) R) : N.OkA → (∀ v, (probs v).length = (N.outEdges v).length) → l.Nodup →
      (∀ m, N.maxAgents = .fin m → (l.length : ℤ) ≤ m) →
      (Net.init N b bas probs).initialise N pick (.queues l) = .ok n0 → LaterFree N k n0 n → k ∈ l →
      (N.qc k).edge.etype ≠ 0 → Alone N k → Feeds r rate ω (N.qc k).arrivalF → Serves σ (N.qc k).serviceF →
      (n.qs k).active = true → n.t ≤ u → (∀ j < N.nE, u < (n.qs j).time) → ServedRun R r rate ω σ k u (n.qs k)

section path

variable {r : ℝ} {rate : ℝ → ℝ} {ω : Draws} {σ : ℕ → ℝ} {R : Type*} [LinearOrder R] [Add R] {k : ℕ} {u : ℝ}
  {s : QS (WithTop ℝ)}

theorem ServedRun.nonneg (h : ServedRun R r rate ω σ k u s) (i : ℕ) : 0 ≤ σ i := by
  obtain ⟨N, b, bas, probs, pick, l, n0, n, hN, hpr, hl, hm, h0, hlat, hk, het, ha, hf, hσ, hact, hu, hu'⟩ := h
  have := (hN.fwd k ha.lt).2 i ((0 : ℝ) : WithTop ℝ)
  rw [hσ] at this
  have : (0 : ℝ) ≤ 0 + σ i := by exact_mod_cast this
  linarith

/-- Who has left and who is there, by the times of the arrivals. -/
theorem ServedRun.counts (hall : ∀ j, ∃ m x, Arrives r rate ω 0 j m x)
    (h : ServedRun R r rate ω σ k u s) : ∃ x : ℕ → ℝ, (∀ j, ∃ m, Arrives r rate ω 0 j m (x j)) ∧
      {j | x (j + 1) ≤ u}.Finite ∧ s.numDepartures = {j | x (j + 1) + σ j ≤ u}.ncard ∧
      s.numSystem = ({j | x (j + 1) ≤ u ∧ u < x (j + 1) + σ j}.ncard : ℕ) := by
  have hσ0 := h.nonneg
  obtain ⟨N, b, bas, probs, pick, l, n0, n, hN, hpr, hl, hm, h0, hlat, hk, het, ha, hf, hσ, hact, hu, hu'⟩ := h
  obtain ⟨m, x, hx, hc⟩ := exists_times hall
  have hd := drawn_eq hf hx hc
  have hr0 := (NetSpec.started_active hN hpr hl hm h0 hk het).2.1
  have hi := (hlat.later.reach hr0).invA hN
  obtain ⟨c1, c2, c3⟩ := C121_path hN hpr hl hm h0 hk het ha hlat hact (u := (u : WithTop ℝ))
    ((hi.clk k ha.lt ha.simple.ne_null).trans hu) (hu' k ha.lt)
  have e1 : ∀ j, comes (N.qc k) j = x (j + 1) := fun j => hd (j + 1)
  have e2 : ∀ j, leaves (N.qc k) j = ((x (j + 1) + σ j : ℝ) : WithTop ℝ) := fun j => by rw [leaves, e1, hσ]
  simp only [e1, e2, WithTop.coe_le_coe, WithTop.coe_lt_coe] at c1 c2 c3
  have hnc : ∀ (P : ℕ → Prop) [DecidablePred P], (∀ j, P j → j < (n.qs k).numArrivals) →
      {j | P j}.ncard = (List.range (n.qs k).numArrivals).countP fun i => decide (P i) := by
    intro P _ hP
    rw [ncard_def, encard_range P _ hP]; rfl
  refine ⟨x, fun j => ⟨_, hx j⟩, ?_, ?_, ?_⟩
  · exact (finite_Iio (n.qs k).numArrivals).subset fun j hj => (c3 j).mp hj
  · rw [c1, hnc fun j => x (j + 1) + σ j ≤ u]
    exact fun j hj => (c3 j).mp (by linarith [hσ0 j])
  · rw [c2, hnc fun j => x (j + 1) ≤ u ∧ u < x (j + 1) + σ j]
    · congr 1
      refine List.countP_congr fun j hj => ?_
      have := (c3 j).mpr (List.mem_range.mp hj)
      simp [this]
    · exact fun j hj => (c3 j).mp hj.1

theorem marked_times {x : ℕ → ℝ} (hx : ∀ j, ∃ m, Arrives r rate ω 0 j m (x j)) (K : Set (ℝ × ℝ)) :
    marked r rate u K ω σ = {j | x (j + 1) ≤ u ∧ (x (j + 1), σ j) ∈ K} := by
  ext j
  obtain ⟨m, hm⟩ := hx (j + 1)
  constructor
  · rintro ⟨m', x', h1, h2⟩
    obtain ⟨-, rfl⟩ := arrives_unique h1 hm
    exact h2
  · intro h; exact ⟨m, _, hm, h⟩

theorem times_unique {x y : ℕ → ℝ} (hx : ∀ j, ∃ m, Arrives r rate ω 0 j m (x j))
    (hy : ∀ j, ∃ m, Arrives r rate ω 0 j m (y j)) : x = y := by
  funext j
  obtain ⟨m, hm⟩ := hx j
  obtain ⟨m', hm'⟩ := hy j
  exact (arrives_unique hm hm').2

/-- The agents in the queue are those marked by services that are not over. -/
theorem ServedRun.system (hall : ∀ j, ∃ m x, Arrives r rate ω 0 j m x)
    (h : ServedRun R r rate ω σ k u s) : s.numSystem = ((marked r rate u {p | u < p.1 + p.2} ω σ).ncard : ℕ) := by
  obtain ⟨x, h1, -, -, h2⟩ := h.counts hall
  rw [h2, marked_times h1]; rfl

/-- The agents that left in between are those marked by services that ended in between. -/
theorem ServedRun.left {v U : ℝ} {s' : QS (WithTop ℝ)} (hall : ∀ j, ∃ m x, Arrives r rate ω 0 j m x) (h : ServedRun R r rate ω σ k u s) (h' : ServedRun R r rate ω σ k v s')
    (huv : u ≤ v) (hvU : v ≤ U) :
    s'.numDepartures - s.numDepartures = (marked r rate U {p | u < p.1 + p.2 ∧ p.1 + p.2 ≤ v} ω σ).ncard := by
  obtain ⟨x, h1, h2, h3, -⟩ := h.counts hall
  obtain ⟨y, g1, g2, g3, -⟩ := h'.counts hall
  obtain rfl := times_unique h1 g1
  rw [h3, g3, marked_times h1]
  have hσ := h.nonneg
  have hfin : {j | x (j + 1) + σ j ≤ u}.Finite := by
    refine h2.subset fun j hj => ?_
    have : x (j + 1) + σ j ≤ u := hj
    show x (j + 1) ≤ u
    linarith [hσ j]
  rw [← ncard_sdiff (s := {j | x (j + 1) + σ j ≤ u}) (t := {j | x (j + 1) + σ j ≤ v}) ?_ hfin]
  · congr 1
    ext j
    simp only [mem_sdiff, mem_ofPred_eq, not_le]
    have := hσ j
    constructor
    · rintro ⟨a1, a2⟩; exact ⟨by linarith, a2, a1⟩
    · rintro ⟨-, a2, a1⟩; exact ⟨a1, a2⟩
  · exact fun j hj => le_trans hj huv

/-- All that left are those marked by services that have ended. -/
theorem ServedRun.left_all (hall : ∀ j, ∃ m x, Arrives r rate ω 0 j m x)
    (h : ServedRun R r rate ω σ k u s) :
    s.numDepartures = (marked r rate u {p | p.1 + p.2 ≤ u} ω σ).ncard := by
  obtain ⟨x, h1, h2, h3, -⟩ := h.counts hall
  have hσ := h.nonneg
  rw [h3, marked_times h1]
  congr 1
  ext j
  simp only [mem_ofPred_eq]
  exact ⟨fun h => ⟨by linarith [hσ j], h⟩, fun h => h.2⟩

end path

section law

variable {r : ℝ} {rate : ℝ → ℝ} {R : Type*} [LinearOrder R] [Add R] {k : ℕ} {ν : Measure ℝ} [IsProbabilityMeasure ν]

theorem ae_fst {P : Draws → Prop} (h : ∀ᵐ ω ∂law, P ω) : ∀ᵐ p ∂markedLaw ν, P p.1 :=
  Measure.quasiMeasurePreserving_fst.ae h

/-- C121: a queue with infinitely many servers into which nobody moves and which nobody is kept from leaving, with
`poisson_random_measure` as `arrival_f` and independent service times with law `ν`. At time `u` the number of agents in it is
Poisson with mean `∫ rate(x) ν(y > u - x) dx`, the number of agents that have left it is Poisson with mean
`∫ rate(x) ν(y ≤ u - x) dx`, over `0 ≤ x ≤ u`, and the two are independent. -/
theorem C121_number (h : Rate rate r)
    (hinf : Filter.Tendsto (fun s => ∫ x in (0 : ℝ)..s, rate x) Filter.atTop Filter.atTop) {u : ℝ} (hu : 0 ≤ u)
    {s : Draws × (ℕ → ℝ) → QS (WithTop ℝ)} (hs : ∀ᵐ p ∂markedLaw ν, ServedRun R r rate p.1 p.2 k u (s p)) :
    (∀ᵐ p ∂markedLaw ν, 0 ≤ (s p).numSystem) ∧
    (markedLaw ν).map (fun p => ((s p).numSystem.toNat, (s p).numDepartures)) =
      (poissonMeasure (∫ x in (0 : ℝ)..u, rate x * ν.real {y | u < x + y}).toNNReal).prod
        (poissonMeasure (∫ x in (0 : ℝ)..u, rate x * ν.real {y | x + y ≤ u}).toNNReal) := by
  have hpath : ∀ᵐ p ∂markedLaw ν, (s p).numSystem = ((marked r rate u {p | u < p.1 + p.2} p.1 p.2).ncard : ℕ) ∧
      (s p).numDepartures = (marked r rate u {p | p.1 + p.2 ≤ u} p.1 p.2).ncard := by
    filter_upwards [ae_fst (ae_return h hinf), hs] with p h2 h3
    exact ⟨h3.system h2, h3.left_all h2⟩
  refine ⟨hpath.mono fun p hp => by rw [hp.1]; exact Int.natCast_nonneg _, ?_⟩
  let K : Fin 2 → Set (ℝ × ℝ) := ![{p | u < p.1 + p.2}, {p | p.1 + p.2 ≤ u}]
  have hK : ∀ i, MeasurableSet (K i) := by
    intro i
    fin_cases i
    · exact measurableSet_lt measurable_const (measurable_fst.add measurable_snd)
    · exact measurableSet_le (measurable_fst.add measurable_snd) measurable_const
  have hd : Pairwise (Function.onFun Disjoint K) := by
    have h01 : Disjoint (K 0) (K 1) := by
      rw [disjoint_left]
      intro p h1 h2
      exact absurd (show u < p.1 + p.2 from h1) (not_lt.mpr h2)
    intro i j hij
    fin_cases i <;> fin_cases j
    · exact absurd rfl hij
    · exact h01
    · exact h01.symm
    · exact absurd rfl hij
  have hl := marked_law (ν := ν) h hu hK hd
  have hmeas : Measurable fun (p : Draws × (ℕ → ℝ)) i => (marked r rate u (K i) p.1 p.2).ncard :=
    measurable_pi_iff.mpr fun i => measurable_marked h.meas (hK i)
  have h2 := congrArg (Measure.map (MeasurableEquiv.piFinTwo fun _ => ℕ)) hl
  rw [(measurePreserving_piFinTwo _).map_eq, Measure.map_map (MeasurableEquiv.measurable _) hmeas] at h2
  rw [Measure.map_congr (g := (MeasurableEquiv.piFinTwo fun _ => ℕ) ∘
    fun (p : Draws × (ℕ → ℝ)) i => (marked r rate u (K i) p.1 p.2).ncard), h2]
  · rfl
  · filter_upwards [hpath] with p hp
    rw [hp.1, hp.2, Int.toNat_natCast]
    rfl

/-- C121: for the same queue and times `u 0 ≤ u 1 ≤ ... ≤ u m`, the numbers of agents that leave it between `u i` and
`u (i + 1)` are Poisson with means `∫ rate(x) ν(u i < x + y ≤ u (i + 1)) dx` and independent, of each other and of the number of
agents in the queue at time `u m`. -/
theorem C121_departures (h : Rate rate r)
    (hinf : Filter.Tendsto (fun s => ∫ x in (0 : ℝ)..s, rate x) Filter.atTop Filter.atTop) {m : ℕ} {u : ℕ → ℝ}
    (hu : Monotone u) (h0 : 0 ≤ u 0) {s : ℕ → Draws × (ℕ → ℝ) → QS (WithTop ℝ)}
    (hs : ∀ i ≤ m, ∀ᵐ p ∂markedLaw ν, ServedRun R r rate p.1 p.2 k (u i) (s i p)) :
    (markedLaw ν).map (fun p (i : Option (Fin m)) => i.elim (s m p).numSystem.toNat
        fun i => (s (i + 1) p).numDepartures - (s i p).numDepartures) =
      Measure.pi fun i : Option (Fin m) => poissonMeasure (i.elim (∫ x in (0 : ℝ)..u m, rate x * ν.real {y | u m < x + y})
        fun i => ∫ x in (0 : ℝ)..u m, rate x * ν.real {y | u i < x + y ∧ x + y ≤ u (i + 1)}).toNNReal := by
  let K : Option (Fin m) → Set (ℝ × ℝ) := fun i => i.elim {p | u m < p.1 + p.2}
    fun i => {p | u i < p.1 + p.2 ∧ p.1 + p.2 ≤ u (i + 1)}
  have hK : ∀ i, MeasurableSet (K i) := by
    intro i
    cases i with
    | none => exact measurableSet_lt measurable_const (measurable_fst.add measurable_snd)
    | some i =>
      exact (measurableSet_lt measurable_const (measurable_fst.add measurable_snd)).inter
        (measurableSet_le (measurable_fst.add measurable_snd) measurable_const)
  have hd : Pairwise (Function.onFun Disjoint K) := by
    have hsome : ∀ i j : Fin m, i < j → Disjoint (K (some i)) (K (some j)) := by
      intro i j hij
      rw [disjoint_left]
      intro p h1 h2
      have h1 : p.1 + p.2 ≤ u (i + 1) := h1.2
      have h2 : u j < p.1 + p.2 := h2.1
      have : u (i + 1) ≤ u j := hu (by have : (i : ℕ) < j := hij; omega)
      linarith
    have hnone : ∀ j : Fin m, Disjoint (K none) (K (some j)) := by
      intro j
      rw [disjoint_left]
      intro p h1 h2
      have h1 : u m < p.1 + p.2 := h1
      have h2 : p.1 + p.2 ≤ u (j + 1) := h2.2
      have : u (j + 1) ≤ u m := hu (by have := j.2; omega)
      linarith
    intro i j hij
    cases i with
    | none =>
      cases j with
      | none => exact absurd rfl hij
      | some j => exact hnone j
    | some i =>
      cases j with
      | none => exact (hnone i).symm
      | some j =>
        rcases lt_or_gt_of_ne (fun e : i = j => hij (by rw [e])) with hlt | hlt
        · exact hsome i j hlt
        · exact (hsome j i hlt).symm
  have hl := marked_law (ν := ν) h (h0.trans (hu (Nat.zero_le m))) hK hd
  rw [Measure.map_congr (g := fun (p : Draws × (ℕ → ℝ)) i => (marked r rate (u m) (K i) p.1 p.2).ncard), hl]
  · congr 1
    funext i
    cases i <;> rfl
  · have hall : ∀ᵐ p ∂markedLaw ν, ∀ i, i ≤ m → ServedRun R r rate p.1 p.2 k (u i) (s i p) :=
      ae_all_iff.mpr fun i => by
        by_cases hi : i ≤ m
        · exact (hs i hi).mono fun p hp _ => hp
        · exact ae_of_all _ fun p h => absurd h hi
    filter_upwards [ae_fst (ae_return h hinf), hall] with p h2 h3
    funext i
    cases i with
    | none =>
      have := (h3 m le_rfl).system h2
      show (s m p).numSystem.toNat = _
      rw [this, Int.toNat_natCast]; rfl
    | some i =>
      exact (h3 i (by have := i.2; omega)).left h2 (h3 (i + 1) (by have := i.2; omega)) (hu (by omega))
        (hu (by have := i.2; omega))

end law

/-! ## Example -/

section example_

variable {r : ℝ} {rate : ℝ → ℝ} {σ : ℕ → ℝ} {ω : Draws}

/-- An event is not after the next events of the queues. -/
theorem step_t_le {T R : Type*} [LinearOrder T] [OrderTop T] [Zero T] [LinearOrder R] [Add R] {N : NetCfg T R} (hN : N.OkA)
    {b : ℕ → Bool} {n n' : Net T R} (hi : NetInvA N b n) (hin : n.initialized = true) (h : n.step N = .ok n') :
    ∀ k < N.nE, n'.t ≤ (n.qs k).time := by
  rcases step_specA hN hi hin with ⟨n2, g1, g2, g3⟩ | ⟨g1, -⟩
  · rw [h] at g1
    obtain rfl := Except.ok.inj g1
    intro k hk
    cases g2 with
    | empty h0 h1 =>
      subst h1
      exact g3.tau k hk
    | idle k x hp h1 h2 h3 h4 h5 h6 h7 => rw [h7]; exact h5 _ hk
    | arrive k s' h1 h2 h3 h4 h5 h6 h7 h8 h9 h10 => rw [h10]; exact h5 _ hk
    | block k e a s1 d h1 h2 h3 h4 h5 h6 h7 h8 h9 h10 h11 h12 h13 h14 h15 => rw [h15]; exact h7 _ hk
    | move k e a a' s1 s2 d h1 h2 h3 h4 h5 h6 h7 h8 h9 h10 h11 h12 h13 h14 => rw [h14]; exact h6 _ hk
  · rw [h] at g1; simp at g1

/-- A simulation that passes `u` has a state at `u`, between events. -/
theorem state_at {T R : Type*} [LinearOrder T] [OrderTop T] [Zero T] [LinearOrder R] [Add R] {N : NetCfg T R} (hN : N.OkA)
    {b : ℕ → Bool} {u : T} (m : ℕ) : ∀ {n n' : Net T R}, NetReach N b n → n.initialized = true → n.t ≤ u →
      n.steps N m = .ok n' → u < n'.t →
      ∃ i n2, n.simulate N i = .ok n2 ∧ n2.t ≤ u ∧ ∀ k < N.nE, u < (n2.qs k).time := by
  induction m with
  | zero =>
    intro n n' _ _ ht h hlt
    simp only [Net.steps, Except.ok.injEq] at h
    rw [h] at ht
    exact absurd hlt (not_lt.mpr ht)
  | succ m ih =>
    intro n n' hr hin ht h hlt
    rw [Net.steps] at h
    split at h
    · simp at h
    · rename_i n1 h1
      have hs1 : n.simulate N 1 = .ok n1 := by rw [simulate_one, if_pos hin, h1]
      have hin1 : n1.initialized = true := by
        rcases step_specA hN (hr.invA hN) hin with ⟨n2, g1, g2, -⟩ | ⟨g1, -⟩
        · rw [h1] at g1
          obtain rfl := Except.ok.inj g1
          exact (NetSpec.stepA_mono hN (hr.invA hN) g2).2.trans hin
        · rw [h1] at g1; simp at g1
      by_cases hu : n1.t ≤ u
      · obtain ⟨i, n2, g1, g2, g3⟩ := ih (hr.step .step trivial hs1) hin1 hu h hlt
        refine ⟨i + 1, n2, ?_, g2, g3⟩
        rw [Net.simulate, if_pos hin1] at g1
        rw [Net.simulate, if_pos hin, Net.steps, h1]
        exact g1
      · refine ⟨0, n, by rw [Net.simulate, if_pos hin]; rfl, ht, fun k hk => ?_⟩
        exact (not_le.mp hu).trans_le (step_t_le hN (hr.invA hN) hin h1 k hk)

/-- `initialize(queues=0)` and a simulation on the network of the example, seen at time `u`. -/
theorem served_run (hr : 0 < r) (hp : Pos ω) (hall : ∀ j, ∃ m x, Arrives r rate ω 0 j m x) (hσ : ∀ i, 1 ≤ σ i) {u : ℝ}
    (hu : 0 ≤ u) (hfin : {j | ∃ m x, Arrives r rate ω 0 j m x ∧ x < u + 1}.Finite) :
    ∃ s, ServedRun ℕ r rate ω σ 0 u s := by
  set N := poisNet r rate σ ω with hNdef
  have hN : N.Ok := poisNet_ok hr hp fun i => zero_le_one.trans (hσ i)
  have hpr : ∀ v, (poisProbs v).length = (N.outEdges v).length := by
    intro v
    match v with
    | 0 => rfl
    | 1 => rfl
    | _ + 2 => rfl
  have hnew : NetReach N (fun _ => true) (Net.init N (fun _ => true) true poisProbs) := .new _ _ hpr
  have hs : Simple (N.qc 0) := .inl rfl
  have hk : 0 < N.nE := by show 0 < 2; omega
  have het : (N.qc 0).edge.etype ≠ 0 := by simp [hNdef, poisNet]
  obtain ⟨n0, h0, hin, ht, -⟩ := NetSpec.C50_initialize hN.okA (by intro m hm; cases hm) hnew (fun l _ => l) (l := [0]) (by simp)
    (by simpa using hk) (.inl rfl) ⟨0, by simp, het⟩
  have hr0 : NetReach N (fun _ => true) n0 := hnew.step (.initialise (fun l _ => l) (.queues [0])) (.inl rfl) h0
  have ht0 : n0.t + ((u + 1 : ℝ) : WithTop ℝ) = ((u + 1 : ℝ) : WithTop ℝ) := by rw [ht]; exact zero_add _
  obtain ⟨fuel, n, h1, h2⟩ := NetSpec.C88_simulate_ends hN poisNet_noInf ((u + 1 : ℝ) : WithTop ℝ)
    (φ := poisPace r rate ω (u + 1)) (by rw [ht0]; exact poisNet_pace hr hp hσ hfin) hr0 hin
  rw [ht0] at h2
  rw [Net.simulateT, if_pos hin] at h1
  obtain ⟨m, hm⟩ := stepsUntil_steps fuel h1
  obtain ⟨i, n2, hsim, g2, g3⟩ := state_at hN.okA m (u := (u : WithTop ℝ)) hr0 hin
    (by rw [ht]; exact (show ((0 : ℝ) : WithTop ℝ) ≤ (u : WithTop ℝ) by exact_mod_cast hu)) hm (lt_of_lt_of_le (by exact_mod_cast (by linarith : u < u + 1)) h2)
  have hlat : LaterFree N 0 n0 n2 := (NetSpec.simulate_induct hN.okA (b := fun _ => true) (fun x => LaterFree N 0 n0 x)
    (fun n1 n2 _ h2 h3 => h2.step .step trivial (by simp) (by simp) (by simp) h3) i hr0 .refl hsim).1
  obtain ⟨mm, x, hx, hc⟩ := exists_times hall
  have hf : Feeds r rate ω (N.qc 0).arrivalF := poisF_feeds
  have hd := drawn_eq hf hx hc
  obtain ⟨-, -, hst⟩ := NetSpec.started hN.okA hpr (l := [0]) (by simp) (by intro m hm; cases hm) h0 (k := 0) (by simp)
    het hs
  have hact : (n2.qs 0).active = true := by
    have e1 : (N.qc 0).arrivalF 0 0 < (⊤ : WithTop ℝ) := by
      have := hd 1
      rw [drawn, drawn] at this
      rw [this]; exact WithTop.coe_lt_top _
    rcases hst with ⟨g, -⟩ | ⟨g1, g2, g3, g4, g5, g6⟩
    · exact absurd e1 (not_lt.mpr g)
    · refine NetSpec.C112_stays_active hN.okA rfl hr0 .refl hk hs rfl rfl (fun i => ?_) (by rw [g2]; rfl) i hsim
      rw [g4, g5, ← NetSpec.drawn_succ _ 0, hd]
      exact WithTop.coe_lt_top _
  have hal : Alone N 0 := by
    refine ⟨hk, hs, rfl, fun j hj => ?_, fun e he => ?_⟩
    · rcases poisNet_cases hj with rfl | rfl <;> simp [hNdef, poisNet]
    · obtain rfl : e = 1 := by simpa [hNdef, poisNet] using he
      simp [hNdef, poisNet]
  exact ⟨_, .mk N _ _ _ _ [0] n0 n2 hN.okA hpr (by simp) (by intro m hm; cases hm) h0 hlat (by simp)
    het hal hf (fun i t => rfl) hact g2 g3⟩

theorem ae_snd {ν : Measure ℝ} [IsProbabilityMeasure ν] (h : ∀ᵐ y ∂ν, 1 ≤ y) : ∀ᵐ p ∂markedLaw ν, ∀ i, 1 ≤ p.2 i := by
  have : ∀ᵐ τ ∂Measure.infinitePi fun _ : ℕ => ν, ∀ i, 1 ≤ τ i := ae_all_iff.mpr fun i =>
    (measurePreserving_eval_infinitePi (fun _ : ℕ => ν) i).quasiMeasurePreserving.ae h
  exact Measure.quasiMeasurePreserving_snd.ae this

/-- The hypotheses of C121 are met, for all times, for every law of services that take at least time 1: the rate is
`2 + sin (2 π x)`. -/
theorem C121_met {ν : Measure ℝ} [IsProbabilityMeasure ν] (hν : ∀ᵐ y ∂ν, 1 ≤ y) :
    Rate (fun x => 2 + Real.sin (2 * Real.pi * x)) 3 ∧
    Filter.Tendsto (fun s => ∫ x in (0 : ℝ)..s, (2 + Real.sin (2 * Real.pi * x))) Filter.atTop Filter.atTop ∧
    ∃ s : ℝ → Draws × (ℕ → ℝ) → QS (WithTop ℝ), ∀ u, 0 ≤ u → ∀ᵐ p ∂markedLaw ν,
      ServedRun ℕ 3 (fun x => 2 + Real.sin (2 * Real.pi * x)) p.1 p.2 0 u (s u p) := by
  obtain ⟨hR, hinf, -⟩ := C112_met 1 zero_le_one
  refine ⟨hR, hinf, ?_⟩
  have hae : ∀ u, 0 ≤ u → ∀ᵐ p ∂markedLaw ν, ∃ s,
      ServedRun ℕ 3 (fun x => 2 + Real.sin (2 * Real.pi * x)) p.1 p.2 0 u s := by
    intro u hu
    filter_upwards [ae_fst ae_pos, ae_fst (ae_return hR hinf), ae_fst (ae_finite hR (by linarith : 0 ≤ u + 1)),
      ae_snd hν] with p h1 h2 h3 h4
    exact served_run hR.pos h1 h2 h4 hu h3
  classical
  refine ⟨fun u p => if h : ∃ s, ServedRun ℕ 3 (fun x => 2 + Real.sin (2 * Real.pi * x)) p.1 p.2 0 u s then h.choose
    else QS.init ((poisNet 3 (fun _ => 0) (fun _ => 1) p.1).qc 0) true, fun u hu => ?_⟩
  filter_upwards [hae u hu] with p h
  rw [dif_pos h]
  exact h.choose_spec

/-- In that network, with services of length 1, at time 2 the number of agents in the queue and the number of agents that
have left are independent and Poisson with mean 2. -/
example : ∃ s : Draws × (ℕ → ℝ) → QS (WithTop ℝ),
    (∀ᵐ p ∂markedLaw (Measure.dirac 1), ServedRun ℕ 3 (fun x => 2 + Real.sin (2 * Real.pi * x)) p.1 p.2 0 2 (s p)) ∧
    (markedLaw (Measure.dirac 1)).map (fun p => ((s p).numSystem.toNat, (s p).numDepartures)) =
      (poissonMeasure 2).prod (poissonMeasure 2) := by
  obtain ⟨h1, h2, s, h3⟩ := C121_met (ν := Measure.dirac (1 : ℝ)) (by simp)
  refine ⟨s 2, h3 2 zero_le_two, ?_⟩
  rw [(C121_number h1 h2 zero_le_two (h3 2 zero_le_two)).2]
  have hint : ∀ a : ℝ, ∫ x in a..a + 1, (2 + Real.sin (2 * Real.pi * x)) = 2 := by
    intro a
    rw [intervalIntegral.integral_add intervalIntegrable_const
      (Continuous.intervalIntegrable (by fun_prop) _ _),
      intervalIntegral.integral_comp_mul_left (fun x => Real.sin x) (by positivity : 2 * Real.pi ≠ 0)]
    simp [mul_add]
  have i01 : ∀ f g : ℝ → ℝ, (∀ x, 0 < x → x ≤ 1 → f x = g x) → ∫ x in (0 : ℝ)..1, f x = ∫ x in (0 : ℝ)..1, g x :=
    fun f g h => intervalIntegral.integral_congr_ae (ae_of_all _ fun x hx => by
      rw [uIoc_of_le zero_le_one] at hx; exact h x hx.1 hx.2)
  have i12 : ∀ f g : ℝ → ℝ, (∀ x, 1 < x → x ≤ 2 → f x = g x) → ∫ x in (1 : ℝ)..2, f x = ∫ x in (1 : ℝ)..2, g x :=
    fun f g h => intervalIntegral.integral_congr_ae (ae_of_all _ fun x hx => by
      rw [uIoc_of_le one_le_two] at hx; exact h x hx.1 hx.2)
  have hm : ∀ K : Set ℝ, MeasurableSet K → (Measure.dirac (1 : ℝ)).real K = K.indicator 1 1 := by
    intro K hK
    rw [measureReal_def, Measure.dirac_apply' _ hK]
    by_cases h : (1 : ℝ) ∈ K <;> simp [h]
  have hi : ∀ (f : ℝ → ℝ), Measurable f → (∀ x, 0 ≤ f x ∧ f x ≤ 1) → ∀ a b,
      IntervalIntegrable (fun x => (2 + Real.sin (2 * Real.pi * x)) * f x) volume a b := by
    intro f hf h01 a b
    refine (h1.integrable a b).mono_fun (h1.meas.mul hf).aestronglyMeasurable (ae_of_all _ fun x => ?_)
    beta_reduce
    rw [Real.norm_of_nonneg (mul_nonneg (h1.nonneg x) (h01 x).1), Real.norm_of_nonneg (h1.nonneg x)]
    exact mul_le_of_le_one_right (h1.nonneg x) (h01 x).2
  have e1 : ∀ x : ℝ, (Measure.dirac (1 : ℝ)).real {y | 2 < x + y} = if 1 < x then 1 else 0 := by
    intro x
    rw [hm {y | 2 < x + y} (measurableSet_lt measurable_const (measurable_const.add measurable_id))]
    by_cases h : 1 < x
    · rw [if_pos h, indicator_of_mem]
      · rfl
      · show 2 < x + 1; linarith
    · rw [if_neg h, indicator_of_notMem]
      show ¬2 < x + 1; linarith [not_lt.mp h]
  have e2 : ∀ x : ℝ, (Measure.dirac (1 : ℝ)).real {y | x + y ≤ 2} = if x ≤ 1 then 1 else 0 := by
    intro x
    rw [hm {y | x + y ≤ 2} (measurableSet_le (measurable_const.add measurable_id) measurable_const)]
    by_cases h : x ≤ 1
    · rw [if_pos h, indicator_of_mem]
      · rfl
      · show x + 1 ≤ 2; linarith
    · rw [if_neg h, indicator_of_notMem]
      show ¬x + 1 ≤ 2; linarith [not_le.mp h]
  have f1 : Measurable fun x : ℝ => if 1 < x then (1 : ℝ) else 0 :=
    Measurable.ite measurableSet_Ioi measurable_const measurable_const
  have f2 : Measurable fun x : ℝ => if x ≤ 1 then (1 : ℝ) else 0 :=
    Measurable.ite measurableSet_Iic measurable_const measurable_const
  have b1 : ∀ x : ℝ, 0 ≤ (if 1 < x then (1 : ℝ) else 0) ∧ (if 1 < x then (1 : ℝ) else 0) ≤ 1 := by
    intro x; split <;> norm_num
  have b2 : ∀ x : ℝ, 0 ≤ (if x ≤ 1 then (1 : ℝ) else 0) ∧ (if x ≤ 1 then (1 : ℝ) else 0) ≤ 1 := by
    intro x; split <;> norm_num
  simp only [e1, e2]
  have z1 := i01 (fun x => (2 + Real.sin (2 * Real.pi * x)) * if 1 < x then (1 : ℝ) else 0) (fun _ => 0)
    (fun x _ hx => by rw [if_neg (not_lt.mpr hx), mul_zero])
  have z2 := i12 (fun x => (2 + Real.sin (2 * Real.pi * x)) * if 1 < x then (1 : ℝ) else 0)
    (fun x => 2 + Real.sin (2 * Real.pi * x)) (fun x hx _ => by rw [if_pos hx, mul_one])
  have z3 := i01 (fun x => (2 + Real.sin (2 * Real.pi * x)) * if x ≤ 1 then (1 : ℝ) else 0)
    (fun x => 2 + Real.sin (2 * Real.pi * x)) (fun x _ hx => by rw [if_pos hx, mul_one])
  have z4 := i12 (fun x => (2 + Real.sin (2 * Real.pi * x)) * if x ≤ 1 then (1 : ℝ) else 0) (fun _ => 0)
    (fun x hx _ => by rw [if_neg (not_le.mpr hx), mul_zero])
  rw [← intervalIntegral.integral_add_adjacent_intervals (hi _ f1 b1 0 1) (hi _ f1 b1 1 2),
    ← intervalIntegral.integral_add_adjacent_intervals (hi _ f2 b2 0 1) (hi _ f2 b2 1 2), z1, z2, z3, z4]
  have h01 := hint 0
  have h12 := hint 1
  norm_num at h01 h12
  rw [h01, h12]
  norm_num

end example_

end Verif.ThinSpec
