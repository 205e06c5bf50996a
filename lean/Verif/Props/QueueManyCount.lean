import Verif.Props.QueueMany
import Verif.Props.NetLineCount

/-! # C146: how many agents are in a queue with several servers, and how many have left it -/

set_option linter.unusedSectionVars false

namespace Verif.QueueSpec

open Filter Topology

section
variable {T : Type*} [LinearOrder T] [OrderTop T] [Zero T]

/-- After an event the clock of the queue shows the time of the event. -/
theorem evOut_clock {c : QCfg T} {s s' : QS T} {r : Option (Agent T)} (h : EvOut c s s' r) :
    s'.currentT = s.currentT ∨ s'.currentT = min (headTime s.arrivals) (headTime s.departures) := by
  cases h with
  | idle _ _ h2 => exact .inl (by rw [h2])
  | dep a h1 h2 h3 => exact .inr (by rw [h2.currentT, h2.time_eq, min_eq_right h1.le])
  | arr a rest h1 _ _ h2 h3 => exact .inr (by rw [h2.currentT, h2.time_eq, min_eq_left h1])
  | block a rest h1 _ _ _ h2 h3 => exact .inr (by rw [h2.currentT, h2.time_eq, min_eq_left h1])

/-- The numbers of arrivals and departures. -/
theorem Traj.alone_numbers {c : QCfg T} (hk : Simple c) {b : Bool} {s : QS T} {l : List (QS T)} (h : Traj c b AloneOk s l) :
    s.numDepartures = (stageIds 2 s.log).length ∧ s.numArrivals = (stageIds 0 s.log).length := by
  refine h.reach.induct (P := fun s => s.numDepartures = (stageIds 2 s.log).length ∧ s.numArrivals = (stageIds 0 s.log).length)
    hk (by simp [QS.init, stageIds]) fun s op s' hb hi hx ho => ?_
  obtain ⟨i1, i2⟩ := hi
  rcases hx with rfl | rfl | ⟨x, rfl⟩
  · cases ho with
    | ev _ r _ h1 =>
      cases h1 with
      | idle _ _ h2 => rw [h2]; exact ⟨i1, i2⟩
      | dep a _ h2 _ =>
        obtain ⟨deps, -, -, g⟩ := h2.served
        rcases g with ⟨b, rest, -, -, -, -, -, e, -⟩ | ⟨-, -, -, -, e, -⟩ <;>
          rw [h2.numDepartures, h2.numArrivals, e, i1, i2] <;> simp [stageIds]
      | arr a rest _ _ _ h2 _ =>
        rcases h2.served with ⟨-, -, -, -, e, -⟩ | ⟨-, -, -, -, e, -⟩ <;>
          rw [h2.numDepartures, h2.numArrivals, e, i1, i2] <;> simp [stageIds]
      | block a rest _ _ _ _ h2 _ => rw [h2.numDepartures, h2.numArrivals, h2.log]; exact ⟨i1, i2⟩
  · cases ho with
    | already => exact ⟨i1, i2⟩
    | act => exact ⟨i1, i2⟩
  · cases ho with
    | collect => exact ⟨i1, i2⟩

end

namespace ManyServers

variable {c : QCfg (WithTop ℝ)} {m : ℕ} [NeZero m] {A S : ℕ → ℝ}

theorem ends_eq (h : ManyServers c m A S) {b : Bool} {s : QS (WithTop ℝ)} {l : List (QS (WithTop ℝ))}
    (ht : Traj c b AloneOk s l) : ends c.serviceF ((atStage 1 (stamps s l)).map Prod.snd) =
      (List.range (atStage 1 (stamps s l)).length).map fun j => ((begins m A S j + S j : ℝ) : WithTop ℝ) := by
  refine List.ext_getElem? fun j => ?_
  rcases Nat.lt_or_ge j (atStage 1 (stamps s l)).length with hj | hj
  · obtain ⟨u, hu⟩ : ∃ u, (atStage 1 (stamps s l))[j]? = some u := ⟨_, List.getElem?_eq_getElem hj⟩
    have hu' := (h.times ht j).2 u hu
    simp only [ends, List.getElem?_mapIdx, List.getElem?_map, hu, List.getElem?_range hj, Option.map_some]
    rw [hu', h.svc]
    norm_cast
  · rw [List.getElem?_eq_none (by simpa [ends] using hj), List.getElem?_eq_none (by simpa using hj)]

/-- At a time between events all have come, been served and left who should have. -/
theorem counts (h : ManyServers c m A S) {b : Bool} {s : QS (WithTop ℝ)} {l : List (QS (WithTop ℝ))}
    (ht : Traj c b AloneOk s l) (ha : s.active = true) {u : ℝ} (hu : s.currentT ≤ (u : WithTop ℝ))
    (hu' : (u : WithTop ℝ) < s.time) :
    (∀ n, n < (atStage 0 (stamps s l)).length ↔ ∑ j ∈ Finset.range (n + 1), A j ≤ u) ∧
    (∀ n, (atStage 1 (stamps s l)).length ≤ n → u < begins m A S n) ∧
    (atStage 2 (stamps s l)).length =
      (List.range (atStage 1 (stamps s l)).length).countP fun j => decide (begins m A S j + S j ≤ u) := by
  have hk : Simple c := .inl h.kind
  have hf := h.forward
  have hT : Traj c b FcfsOk s l := Traj.mono (fun _ _ => AloneOk.fcfs) ht
  have hal := Traj.alone h.endless ht
  have hin := hT.fcfsInv hk hf rfl
  have hb := ht.reach.base hk
  have hmono : Monotone fun n => ∑ j ∈ Finset.range n, A j := by
    refine monotone_nat_of_le_succ fun n => ?_
    rw [Finset.sum_range_succ]
    exact le_add_of_nonneg_right (h.arr_nonneg n)
  have arrived : ∀ n, n < (atStage 0 (stamps s l)).length ↔ ∑ j ∈ Finset.range (n + 1), A j ≤ u := by
    intro n
    constructor
    · intro hn
      have h1 := hin.early _ (List.getElem_mem hn)
      rw [(h.times ht n).1 _ (List.getElem?_eq_getElem hn)] at h1
      exact WithTop.coe_le_coe.mp (h1.trans hu)
    · intro hn
      obtain ⟨x, r1, -, r2, r3, r4⟩ := hal.run ha
      by_contra hcon
      have h3 : x.time ≤ (u : WithTop ℝ) := by
        rw [r2, r3, r4, h.drawn_eq]
        exact WithTop.coe_le_coe.mpr ((hmono (by omega)).trans hn)
      have h4 : s.time ≤ x.time := by
        rw [hb.time, nextTime]
        exact (min_le_left _ _).trans (hb.okA.le x (by rw [r1]; simp))
      exact absurd (h4.trans h3) (not_le.mpr hu')
  have late : ∀ a ∈ agents s.departures, (u : WithTop ℝ) < a.time := fun a ha => by
    refine hu'.trans_le ?_
    rw [hb.time, nextTime]
    exact (min_le_right _ _).trans (hb.okD.le a ha)
  have hstart := h.ends_eq ht
  have hperm := hin.out.map Prod.snd
  rw [List.map_append, List.map_snd_zip (by simp [ends]), hstart] at hperm
  refine ⟨arrived, fun n hn => ?_, ?_⟩
  · by_contra hcon
    have hK := (begins_mono (m := m) h.arr_nonneg h.svc_nonneg hn).trans (not_lt.mp hcon)
    set K := (atStage 1 (stamps s l)).length with hKdef
    have hcome := (arrived K).mpr ((le_max_left _ _).trans hK)
    have hq : s.queue ≠ [] := by
      intro h0
      have := congrArg List.length hin.fifo
      rw [h0] at this
      simp at this
      omega
    have hw := (ht.reach.inv hk).work hq
    rw [hin.srv, h.servers] at hw
    have hfull : m ≤ (agents s.departures).length := by
      by_contra h0
      simp [Cap.lt] at hw
      omega
    have hcnt := hperm.countP_eq (((begins m A S K : ℝ) : WithTop ℝ) < ·)
    rw [List.countP_append, count_eq _ _ _ rfl] at hcnt
    have hall : ((agents s.departures).map (fun a => (a.id, a.time)) |>.map Prod.snd).countP
        (((begins m A S K : ℝ) : WithTop ℝ) < ·) = (agents s.departures).length := by
      rw [List.countP_eq_length.mpr]
      · simp
      · intro x hx
        simp only [List.map_map, List.mem_map, Function.comp_apply] at hx
        obtain ⟨a, ha1, rfl⟩ := hx
        exact decide_eq_true ((WithTop.coe_le_coe.mpr hK).trans_lt (late a ha1))
    have a0 : 0 ≤ ∑ j ∈ Finset.range (K + 1), A j := Finset.sum_nonneg fun j _ => h.arr_nonneg j
    have hlt : going m A S K (begins m A S K) < m :=
      (going_lt_iff (m := m) (A := A) h.svc_nonneg K (a0.trans (le_max_left _ _))).mpr (le_max_right _ _)
    omega
  · have hcnt := hperm.countP_eq (· ≤ (u : WithTop ℝ))
    rw [List.countP_append, List.countP_map (f := fun j => ((begins m A S j + S j : ℝ) : WithTop ℝ))] at hcnt
    have h1 : ((agents s.departures).map (fun a => (a.id, a.time)) |>.map Prod.snd).countP (· ≤ (u : WithTop ℝ)) = 0 := by
      refine List.countP_eq_zero.mpr fun x hx => ?_
      simp only [List.map_map, List.mem_map, Function.comp_apply] at hx
      obtain ⟨a, ha1, rfl⟩ := hx
      simpa using late a ha1
    have h2 : ((atStage 2 (stamps s l)).map Prod.snd).countP (· ≤ (u : WithTop ℝ)) = (atStage 2 (stamps s l)).length := by
      rw [List.countP_eq_length.mpr]
      · simp
      · intro x hx
        obtain ⟨p, hp, rfl⟩ := List.mem_map.mp hx
        exact decide_eq_true ((hin.past p hp).trans hu)
    rw [h1, h2, zero_add] at hcnt
    rw [hcnt]
    refine List.countP_congr fun j _ => ?_
    simp only [Function.comp_apply, decide_eq_true_eq, WithTop.coe_le_coe]

end ManyServers

/-- C146: at a time `u` between two events of a history of a queue with `m` servers that is run by itself and is active, those
agents have come whose time to come is at most `u`, and as many have left as should have by `u`, if each goes to the server
that is free first; the others are in the queue. -/
theorem C146_counts {c : QCfg (WithTop ℝ)} {m : ℕ} [NeZero m] {A S : ℕ → ℝ} (h : ManyServers c m A S) {b : Bool}
    {s : QS (WithTop ℝ)} {l : List (QS (WithTop ℝ))} (ht : Traj c b AloneOk s l) (ha : s.active = true) {u : ℝ}
    (hu : s.currentT ≤ (u : WithTop ℝ)) (hu' : (u : WithTop ℝ) < s.time) :
    (∀ n, n < s.numArrivals ↔ ∑ j ∈ Finset.range (n + 1), A j ≤ u) ∧
    {n | begins m A S n + S n ≤ u}.Finite ∧ s.numDepartures = {n | begins m A S n + S n ≤ u}.ncard ∧
    s.numSystem = s.numArrivals - s.numDepartures := by
  have hk : Simple c := .inl h.kind
  have hT : Traj c b FcfsOk s l := Traj.mono (fun _ _ => AloneOk.fcfs) ht
  have hin := hT.fcfsInv hk h.forward rfl
  obtain ⟨d1, d2⟩ := Traj.alone_numbers hk ht
  rw [← NetSpec.stage_length hk hT] at d1 d2
  obtain ⟨e1, e2, e3⟩ := h.counts ht ha hu hu'
  have e : {n | begins m A S n + S n ≤ u} =
      (((List.range (atStage 1 (stamps s l)).length).filter fun j => decide (begins m A S j + S j ≤ u)).toFinset : Set ℕ) := by
    ext n
    simp only [Set.mem_ofPred_eq, List.coe_toFinset, List.mem_filter, List.mem_range, decide_eq_true_eq]
    refine ⟨fun hn => ⟨?_, hn⟩, fun hn => hn.2⟩
    by_contra hcon
    have := e2 n (not_lt.mp hcon)
    have := h.svc_nonneg n
    linarith
  refine ⟨fun n => by rw [d2]; exact e1 n, by rw [e]; exact Finset.finite_toSet _, ?_, ?_⟩
  · rw [d1, e3, e, Set.ncard_coe_finset, List.toFinset_card_of_nodup (List.nodup_range.filter _), List.countP_eq_length_filter]
  · have h1 := (ht.reach.inv hk).numSystem
    have h2 := hin.out.length_eq
    have h3 := congrArg List.length hin.fifo
    have h4 := hin.fcfs.1
    simp only [List.length_append, List.length_map, ends, List.length_mapIdx, List.length_take, List.length_zip] at h2 h3 h4
    rw [d1, d2]
    omega

/-- C146: there are such states: a history that has not come past time `u` goes on until `u` lies between two of its events. -/
theorem C146_between {c : QCfg (WithTop ℝ)} {m : ℕ} [NeZero m] {A S : ℕ → ℝ} (h : ManyServers c m A S)
    (hA : ∀ x, ∃ n, x < ∑ j ∈ Finset.range n, A j) {b : Bool} {s : QS (WithTop ℝ)} {l : List (QS (WithTop ℝ))}
    (ht : Traj c b AloneOk s l) (ha : s.active = true) {u : ℝ} (hu : s.currentT ≤ (u : WithTop ℝ)) :
    ∃ s' l', Traj c b AloneOk s' l' ∧ (s :: l) <:+ (s' :: l') ∧ s'.active = true ∧ s'.currentT ≤ (u : WithTop ℝ) ∧
      (u : WithTop ℝ) < s'.time := by
  have hk : Simple c := .inl h.kind
  by_contra hcon
  have on : ∀ n : ℕ, ∃ s' l', Traj c b AloneOk s' l' ∧ (s :: l) <:+ (s' :: l') ∧ s'.active = true ∧
      s'.currentT ≤ (u : WithTop ℝ) ∧ n ≤ (atStage 0 (stamps s' l')).length + (atStage 2 (stamps s' l')).length := by
    intro n
    induction n with
    | zero => exact ⟨s, l, ht, List.suffix_refl _, ha, hu, Nat.zero_le _⟩
    | succ n ih =>
      obtain ⟨s1, l1, g1, g2, g3, g4, g5⟩ := ih
      have hb := g1.reach.base hk
      obtain ⟨s2, r, e1, e0⟩ := nextEvent_spec c s1 hk hb.okA hb.okD
      have hr : QOp.run c s1 .next = .ok s2 := by simp [QOp.run, e1]
      obtain ⟨e2, e3⟩ := (Traj.alone h.endless g1).next_active h.endless g3 hb.okA (opOut c s1 s2 .next hk hb hr)
      refine ⟨s2, s1 :: l1, .step .next g1 (.inl rfl) hr, g2.trans (List.suffix_cons _ _), e2, ?_, by omega⟩
      have h1 : s1.time ≤ (u : WithTop ℝ) := not_lt.mp fun h2 => hcon ⟨s1, l1, g1, g2, g3, g4, h2⟩
      rcases evOut_clock e0 with h2 | h2
      · exact h2.trans_le g4
      · rw [h2, ← nextTime, ← hb.time]; exact h1
  obtain ⟨K, hK⟩ := hA u
  obtain ⟨s', l', g1, -, -, g4, g5⟩ := on (2 * (K + 1))
  have hT : Traj c b FcfsOk s' l' := Traj.mono (fun _ _ => AloneOk.fcfs) g1
  have hin := hT.fcfsInv hk h.forward rfl
  have h2 := hin.out.length_eq
  have h4 := hin.fcfs.1
  simp only [List.length_append, List.length_map, ends, List.length_mapIdx, List.length_zip] at h2 h4
  have hlt : K < (atStage 0 (stamps s' l')).length := by omega
  have h5 := hin.early _ (List.getElem_mem hlt)
  rw [(h.times g1 K).1 _ (List.getElem?_eq_getElem hlt)] at h5
  have h6 : ∑ j ∈ Finset.range (K + 1), A j ≤ u := WithTop.coe_le_coe.mp (h5.trans g4)
  rw [Finset.sum_range_succ] at h6
  have := h.arr_nonneg K
  linarith

section
open MeasureTheory ProbabilityTheory

/-- C146: if the times between arrivals and the services are independent, each of one law, with means `α > 0` and `σ`, then
with probability 1 the number of agents that have left, divided by the time, tends to `1 / max α (σ / m)`, and the number of
agents in the queue, divided by the time, to `1 / α - 1 / max α (σ / m)`, in all histories alike. -/
theorem C146_rates {Ω : Type*} [MeasurableSpace Ω] {P : Measure Ω} [IsProbabilityMeasure P] {A S : ℕ → Ω → ℝ}
    (h : RenewalInput P A S) (hpos : 0 < ∫ ω, A 0 ω ∂P) {m : ℕ} (hm : 0 < m) {c : Ω → QCfg (WithTop ℝ)}
    (hc : ∀ ω, ManyServers (c ω) m (A · ω) (S · ω)) :
    ∀ᵐ ω ∂P, ∀ ε > 0, ∃ U : ℝ, ∀ u ≥ U, ∀ b s l, Traj (c ω) b AloneOk s l → s.active = true →
      s.currentT ≤ (u : WithTop ℝ) → (u : WithTop ℝ) < s.time →
      |s.numDepartures / u - 1 / max (∫ ω, A 0 ω ∂P) ((∫ ω, S 0 ω ∂P) / m)| < ε ∧
      |s.numSystem / u - (1 / (∫ ω, A 0 ω ∂P) - 1 / max (∫ ω, A 0 ω ∂P) ((∫ ω, S 0 ω ∂P) / m))| < ε := by
  have : NeZero m := ⟨hm.ne'⟩
  have hS := strong_law_ae_real (μ := P) S h.svc_int
    (fun i j hij => h.indep.indepFun (i := .inr i) (j := .inr j) (by simpa using hij)) h.svc
  have hA := strong_law_ae_real (μ := P) (fun i => A (i + 1)) ((h.arr 1).integrable_iff.mpr h.arr_int)
    (fun i j hij => h.indep.indepFun (i := .inl (i + 1)) (j := .inl (j + 1)) (by simpa using hij))
    fun i => (h.arr (i + 1)).trans (h.arr (0 + 1)).symm
  rw [(h.arr (0 + 1)).integral_eq] at hA
  set α := ∫ ω, A 0 ω ∂P with hα
  set σ := ∫ ω, S 0 ω ∂P with hσ
  filter_upwards [hS, hA] with ω h1 h2 ε hε
  have nA := (hc ω).arr_nonneg
  have nS := (hc ω).svc_nonneg
  -- arrivals
  have lA : Tendsto (fun n : ℕ => (∑ j ∈ Finset.range (n + 1), A j ω) / n) atTop (𝓝 α) := by
    have h3 := h2.add (tendsto_const_div_atTop_nhds_zero_nat (A 0 ω))
    rw [add_zero] at h3
    refine h3.congr fun n => ?_
    rw [Finset.sum_range_succ', ← add_div]
  -- starts of services
  have lB : Tendsto (fun n : ℕ => begins m (A · ω) (S · ω) n / n) atTop (𝓝 (max α (σ / m))) := by
    have h3 := (waitAt_limit (m := m) nA nS h1 h2).add lA
    have e : max 0 (σ / m - α) + α = max α (σ / m) := by
      rw [← max_add_add_right, zero_add, sub_add_cancel]
    rw [e] at h3
    refine h3.congr fun n => ?_
    rw [← add_div, waitAt, sub_add_cancel]
  -- and latest ends
  have lE : Tendsto (fun n : ℕ => (begins m (A · ω) (S · ω) n + longest (S · ω) (n + 1)) / n) atTop (𝓝 (max α (σ / m))) := by
    have h3 := (tendsto_add_atTop_iff_nat 1).mpr (longest_small h1)
    have h4 : Tendsto (fun n : ℕ => ((n : ℝ) + 1) / n) atTop (𝓝 1) := by
      have : Tendsto (fun n : ℕ => 1 + 1 / (n : ℝ)) atTop (𝓝 (1 + 0)) :=
        tendsto_const_nhds.add tendsto_one_div_atTop_nhds_zero_nat
      rw [add_zero] at this
      refine this.congr' ?_
      filter_upwards [eventually_gt_atTop 0] with n hn
      have : (n : ℝ) ≠ 0 := by exact_mod_cast hn.ne'
      field_simp
    have h5 := lB.add (h3.mul h4)
    rw [zero_mul, add_zero] at h5
    refine h5.congr' ?_
    filter_upwards [eventually_gt_atTop 0] with n hn
    have : (n : ℝ) ≠ 0 := by exact_mod_cast hn.ne'
    push_cast
    field_simp
  have hM : 0 < max α (σ / m) := lt_max_of_lt_left hpos
  obtain ⟨U1, k1⟩ := NetSpec.rate_of_times hpos lA (half_pos hε)
  obtain ⟨U2, k2⟩ := NetSpec.rate_of_times hM lB (half_pos hε)
  obtain ⟨U3, k3⟩ := NetSpec.rate_of_times hM lE (half_pos hε)
  refine ⟨max 1 (max U1 (max U2 U3)), fun u hu b s l ht ha hu1 hu2 => ?_⟩
  have q0 : (0 : ℝ) < u := lt_of_lt_of_le one_pos ((le_max_left _ _).trans hu)
  have q1 : U1 ≤ u := ((le_max_left _ _).trans (le_max_right _ _)).trans hu
  have q2 : U2 ≤ u := (((le_max_left _ _).trans (le_max_right _ _)).trans (le_max_right _ _)).trans hu
  have q3 : U3 ≤ u := (((le_max_right _ _).trans (le_max_right _ _)).trans (le_max_right _ _)).trans hu
  obtain ⟨f1, f2, f3, f4⟩ := C146_counts (hc ω) ht ha hu1 hu2
  obtain ⟨-, g2, -⟩ := (hc ω).counts ht ha hu1 hu2
  have initial : ∀ E : ℕ → ℝ, Monotone E → (∀ n, begins m (A · ω) (S · ω) n ≤ E n) → ∃ K, ∀ r, r < K ↔ E r ≤ u := by
    intro E hE hle
    have hex : ∃ n, u < E n := ⟨_, (g2 _ le_rfl).trans_le (hle _)⟩
    classical
    refine ⟨Nat.find hex, fun r => ⟨fun hr => not_lt.mp (Nat.find_min hex hr), fun hr => ?_⟩⟩
    by_contra hcon
    exact absurd ((Nat.find_spec hex).trans_le (hE (not_lt.mp hcon))) (not_lt.mpr hr)
  have mB := begins_mono (m := m) nA nS
  obtain ⟨K2, e2⟩ := initial _ mB fun _ => le_rfl
  obtain ⟨K3, e3⟩ := initial (fun n => begins m (A · ω) (S · ω) n + longest (S · ω) (n + 1))
    (fun i j hij => add_le_add (mB hij) (longest_mono _ (by omega))) fun n => le_add_of_nonneg_right (longest_nonneg _ _)
  have c2 : s.numDepartures ≤ K2 := by
    rw [f3, ← Finset.card_range K2, ← Set.ncard_coe_finset]
    refine Set.ncard_le_ncard (fun n hn => ?_) (Finset.finite_toSet _)
    have : begins m (A · ω) (S · ω) n ≤ u := by
      have h5 : begins m (A · ω) (S · ω) n + S n ω ≤ u := hn
      have h6 := nS n
      linarith
    simpa using (e2 n).mpr this
  have c3 : K3 ≤ s.numDepartures := by
    rw [f3, ← Finset.card_range K3, ← Set.ncard_coe_finset]
    refine Set.ncard_le_ncard (fun n hn => ?_) f2
    have h5 := (e3 n).mp (by simpa using hn)
    have h6 : S n ω ≤ longest (S · ω) (n + 1) := le_max_right _ _
    show begins m (A · ω) (S · ω) n + S n ω ≤ u
    linarith
  have r1 := k1 u q1 _ f1
  have r2 := k2 u q2 K2 e2
  have r3 := k3 u q3 K3 e3
  have c2' : (s.numDepartures : ℝ) / u ≤ K2 / u := by gcongr
  have c3' : (K3 : ℝ) / u ≤ s.numDepartures / u := by gcongr
  rw [abs_lt] at r1 r2 r3
  have key : |s.numDepartures / u - 1 / max α (σ / m)| < ε / 2 := by
    rw [abs_lt]; constructor <;> linarith
  refine ⟨key.trans (half_lt_self hε), ?_⟩
  have e4 : (s.numSystem : ℝ) = s.numArrivals - s.numDepartures := by rw [f4]; push_cast; rfl
  rw [e4, sub_div]
  rw [abs_lt] at key ⊢
  constructor <;> linarith

end

theorem start_zero {c : QCfg (WithTop ℝ)} (hc : Endless c) (b : Bool) :
    ∃ s, Traj c b AloneOk s [QS.init c b] ∧ s.active = true ∧ s.currentT = 0 := by
  have hk : Simple c := .inl hc.kind
  have hb := (Reach.init (c := c) (b := b) (ok := AloneOk)).base hk
  obtain ⟨arr, ext, ν, act, calls, h1, -, -, h2⟩ := setActive_spec c (QS.init c b) hk.ne_null hb.okA hb.time rfl
  refine ⟨_, .step .setActive .init (.inr (.inl rfl)) h2, ?_, rfl⟩
  cases h1 with
  | early q => exact absurd q (lt_irrefl _)
  | off _ q => rw [hc.deactive] at q; exact absurd (hc.fin _ _ hc.zero) (not_lt.mpr q)
  | new _ _ => simp [hc.cap, Cap.lt]

/-- Two servers, arrivals at 1, 2, 3, ..., services that take 3: there is a state at time 4.5 between events; four agents have come, one
of them has left, and three are there. -/
example : ∃ s l, Traj { givenQueue (fun _ => 1) (fun _ => 3) with servers := .fin 2 } true AloneOk s l ∧ s.active = true ∧
    s.currentT ≤ ((9 / 2 : ℝ) : WithTop ℝ) ∧ ((9 / 2 : ℝ) : WithTop ℝ) < s.time ∧
    s.numArrivals = 4 ∧ s.numDepartures = 1 ∧ s.numSystem = 3 := by
  have h : ManyServers { givenQueue (fun _ => 1) (fun _ => 3) with servers := .fin 2 } 2 (fun _ => 1) fun _ => 3 :=
    ⟨rfl, rfl, rfl, rfl, fun _ _ => rfl, fun _ _ => rfl, fun _ => by norm_num, fun _ => by norm_num⟩
  obtain ⟨s0, g1, g2, g3⟩ := start_zero h.endless true
  have hu : ∀ x : ℝ, ∃ n : ℕ, x < ∑ j ∈ Finset.range n, (1 : ℝ) := fun x => by simpa using exists_nat_gt x
  have hz : s0.currentT ≤ ((9 / 2 : ℝ) : WithTop ℝ) := by
    rw [g3]; exact WithTop.coe_le_coe.mpr (by norm_num)
  obtain ⟨s, l, k1, -, k2, k3, k4⟩ := C146_between h hu g1 g2 hz
  obtain ⟨e1, -, e2, e3⟩ := C146_counts h k1 k2 k3 k4
  have n4 : s.numArrivals = 4 := by
    have i1 := (e1 3).mpr (by norm_num)
    have i2 := mt (e1 4).mp (by norm_num)
    omega
  have b0 : begins 2 (fun _ => 1) (fun _ => 3) 0 = 1 := by norm_num [begins, free]
  have s1 : {n | begins 2 (fun _ => 1) (fun _ => 3) n + 3 ≤ (9 / 2 : ℝ)} = {0} := by
    ext n
    simp only [Set.mem_ofPred_eq, Set.mem_singleton_iff]
    constructor
    · intro hn
      by_contra h0
      have i1 : ∑ j ∈ Finset.range (n + 1), (1 : ℝ) ≤ begins 2 (fun _ => 1) (fun _ => 3) n := le_max_left _ _
      have i2 : (1 : ℝ) ≤ n := by exact_mod_cast Nat.one_le_iff_ne_zero.mpr h0
      simp at i1
      linarith
    · rintro rfl
      rw [b0]; norm_num
  have n1 : s.numDepartures = 1 := by rw [e2, s1, Set.ncard_singleton]
  exact ⟨s, l, k1, k2, k3, k4, n4, n1, by rw [e3, n4, n1]; norm_num⟩

open MeasureTheory in
/-- Arrivals every 1/2, services that take 0 or 3 with equal chances, two servers: agents leave at rate 4/3, and the queue grows
at rate 2/3. -/
example : ∀ᵐ ω ∂Measure.infinitePi (laws (.dirac (1 / 2)) coin), ∀ ε > 0, ∃ U : ℝ, ∀ u ≥ U, ∀ b s l,
    Traj { givenQueue (fun i => |ω (.inl i)|) (fun i => |ω (.inr i)|) with servers := .fin 2 } b AloneOk s l → s.active = true →
    s.currentT ≤ (u : WithTop ℝ) → (u : WithTop ℝ) < s.time →
    |s.numDepartures / u - 4 / 3| < ε ∧ |s.numSystem / u - 2 / 3| < ε := by
  obtain ⟨h1, h2, h3, h4⟩ := C133_met (.dirac (1 / 2)) coin (integrable_dirac (by simp)) coin_int
  have h2' : ∫ ω, |ω (.inl 0)| ∂Measure.infinitePi (laws (.dirac (1 / 2)) coin) = 1 / 2 := by
    rw [h2]; simp
  rw [coin_mean] at h3
  have key := C146_rates h1 (by rw [h2']; norm_num) (m := 2) (by norm_num)
    (c := fun ω => { givenQueue (fun i => |ω (.inl i)|) (fun i => |ω (.inr i)|) with servers := .fin 2 }) fun ω =>
      ⟨rfl, rfl, rfl, rfl, fun _ _ => rfl, fun _ _ => rfl, fun _ => abs_nonneg _, fun _ => abs_nonneg _⟩
  rw [h2', h3] at key
  norm_num at key ⊢
  exact key

end Verif.QueueSpec
