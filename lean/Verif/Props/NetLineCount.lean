import Verif.Props.NetLine

/-! # C136: how many agents have left the queues of a line -/

set_option linter.unusedSectionVars false

namespace Verif.NetSpec

open QueueSpec

variable {T R : Type*} [LinearOrder T] [OrderTop T] [Zero T] [LinearOrder R] [Add R]

theorem passage_mono {svc : ℕ → T → T} (h : ∀ n t, t ≤ svc n t) (a : ℕ → T) : Monotone (passage svc a) :=
  monotone_nat_of_le_succ fun r => by rw [passage]; exact (le_max_right _ _).trans (h _ _)

theorem le_passage {svc : ℕ → T → T} (h : ∀ n t, t ≤ svc n t) (a : ℕ → T) (r : ℕ) : a r ≤ passage svc a r := by
  cases r with
  | zero => exact h _ _
  | succ r => exact (le_max_left _ _).trans (h _ _)

/-- If all that should have come by `u` have come, then all that should have left by `u` have left. -/
theorem Traj.done {c : QCfg T} (hk : c.kind = .server) (hf : Forward c) (hone : c.servers = .fin 1) {b : Bool} {fed : Prop}
    {s : QS T} {l : List (QS T)} (h : Traj c b (LineOp fed) s l) {a : ℕ → T}
    (ha : ∀ r t, ((atStage 0 (stamps s l)).map Prod.snd)[r]? = some t → t = a r) {u : T} (hu : u < s.time)
    (hcome : ∀ r, a r ≤ u → r < (atStage 0 (stamps s l)).length) {r : ℕ} (hr : NetSpec.passage c.serviceF a r ≤ u) :
    r < (atStage 2 (stamps s l)).length := by
  have hs : Simple c := .inl hk
  have hT : Traj c b FcfsOk s l := Traj.mono (fun _ _ => LineOp.fcfs) h
  have hin := hT.fcfsInv hs hf rfl
  obtain ⟨p1, -, -, p2⟩ := Traj.passage hk hf hone h ha
  by_contra hcon
  have hd := (passage_mono hf.2 a (not_lt.mp hcon)).trans hr
  have hx := hcome _ ((le_passage hf.2 a _).trans hd)
  have hb := hT.reach.base hs
  have l1 := congrArg List.length p2
  have l2 := congrArg List.length hin.fifo
  simp only [List.length_append, List.length_map, ends, List.length_mapIdx, List.length_take] at l1 l2
  match hy : agents s.departures with
  | [] =>
    have hq : s.queue ≠ [] := by
      rintro h0
      rw [h0] at l2
      rw [hy] at l1
      simp at l1 l2
      omega
    have := (hT.reach.inv hs).work hq
    rw [hin.srv, hone, hy] at this
    simp [Cap.lt] at this
  | x :: rest =>
    have e : (ends c.serviceF ((atStage 1 (stamps s l)).map Prod.snd))[(atStage 2 (stamps s l)).length]? = some x.time := by
      rw [← p2, List.getElem?_append_right (by simp), hy]
      simp
    simp only [ends, List.getElem?_mapIdx, Option.map_eq_some_iff] at e
    obtain ⟨t, e1, e2⟩ := e
    rw [p1 _ t e1] at e2
    have h1 : s.time ≤ x.time := by
      rw [hb.time, nextTime]
      exact (min_le_right _ _).trans (hb.okD.le x (by rw [hy]; simp))
    exact absurd (h1.trans (e2 ▸ hd)) (not_le.mpr hu)

/-- The number of departures. -/
theorem Traj.departures {c : QCfg T} (hk : Simple c) {b : Bool} {fed : Prop} {s : QS T} {l : List (QS T)}
    (h : Traj c b (LineOp fed) s l) : s.numDepartures = (stageIds 2 s.log).length ∧ s.numArrivals = (stageIds 0 s.log).length := by
  refine h.reach.induct (P := fun s => s.numDepartures = (stageIds 2 s.log).length ∧ s.numArrivals = (stageIds 0 s.log).length)
    hk (by simp [QS.init, stageIds]) fun s op s' hb hi hx ho => ?_
  obtain ⟨i1, i2⟩ := hi
  rcases hx with rfl | rfl | ⟨-, a, rfl, -⟩
  · cases ho with
    | ev _ r _ h1 =>
      cases h1 with
      | idle _ _ h2 => rw [h2]; exact ⟨i1, i2⟩
      | dep a _ h2 _ =>
        obtain ⟨deps, -, -, g⟩ := h2.served
        rcases g with ⟨b, rest, -, -, -, -, -, e, -⟩ | ⟨-, -, -, -, e, -⟩ <;>
          rw [h2.numDepartures, h2.numArrivals, e, i1, i2] <;> simp [stageIds]
      | arr a rest _ _ _ h2 _ =>
        rcases h2.served with ⟨-, -, -, -, e, -⟩ | ⟨-, -, -, -, e, -⟩ <;>
          rw [h2.numDepartures, h2.numArrivals, e, i1, i2] <;> simp [stageIds]
      | block a rest _ _ _ _ h2 _ => rw [h2.numDepartures, h2.numArrivals, h2.log]; exact ⟨i1, i2⟩
  · cases ho with
    | already => exact ⟨i1, i2⟩
    | act => exact ⟨i1, i2⟩
  · cases ho with
    | handover => exact ⟨i1, i2⟩

theorem stage_length {c : QCfg T} (hk : Simple c) {b : Bool} {s : QS T} {l : List (QS T)} (h : Traj c b FcfsOk s l) (k : ℕ) :
    (atStage k (stamps s l)).length = (stageIds k s.log).length := by
  rw [← C83_stamps_log hk h]
  generalize stamps s l = L
  induction L with
  | nil => rfl
  | cons x L ih =>
    simp only [atStage, stageIds, List.filterMap_cons, List.map_cons, List.filter_cons] at ih ⊢
    by_cases hx : x.2.1 = k
    · simpa [hx] using ih
    · simpa [hx] using ih

/-- C136: at a time `u` between two events of a history in which the first queue of a line is active, those agents have
come to the `i`-th queue whose time to come there is at most `u`, and those have left it whose time to leave is; `num_arrivals`
and `num_departures` are the numbers of these. -/
theorem C136_counts {N : NetCfg T R} (hN : N.OkA) (hmax : N.maxAgents = .inf) {q : ℕ → Nat} {m : ℕ} (hl : Line N q m)
    {b : Nat → Bool} {n : Net T R} {L : List (Net T R)} (h : NetTraj N b (LineOk (Downstream q m)) n L)
    (hact : (n.qs (q 0)).active = true) {u : T} (hu : n.t ≤ u) (hu' : ∀ i ≤ m, u < (n.qs (q i)).time) {i : ℕ} (hi : i ≤ m)
    (r : ℕ) :
    (r < (n.qs (q i)).numArrivals ↔ comeTime N q i r ≤ u) ∧ (r < (n.qs (q i)).numDepartures ↔ lineTime N q i r ≤ u) := by
  have hinv := h.hist.reach.invA hN
  have fin : ∀ {i : ℕ} (_ : i ≤ m) {fed : Prop} (_ : ¬ fed → ∀ k < N.nE, q i ∉ N.outEdges (N.qc k).edge.tgt),
      (∀ r, comeTime N q i r ≤ u → r < (atStage 0 (netStamps (q i) n L)).length) →
      ∀ r, (r < (n.qs (q i)).numArrivals ↔ comeTime N q i r ≤ u) ∧
        (r < (n.qs (q i)).numDepartures ↔ lineTime N q i r ≤ u) ∧
        (lineTime N q i r ≤ u → r < (atStage 2 (netStamps (q i) n L)).length) := by
    intro i hi fed hfed hcome r
    have hfr := hl.free i hi
    have hs : Simple (N.qc (q i)) := .inl hfr.kind
    have hf := hN.fwd _ hfr.lt
    obtain ⟨l, h1, h2⟩ := NetTraj.line hN hmax h hfr hfed
    have hT : Traj (N.qc (q i)) (b (q i)) FcfsOk (n.qs (q i)) l := Traj.mono (fun _ _ => LineOp.fcfs) h1
    have hin := hT.fcfsInv hs hf rfl
    obtain ⟨t1, t2⟩ := C135_line hN hmax hl h hi
    obtain ⟨d1, d2⟩ := Traj.departures hs h1
    rw [← stage_length hs hT] at d1 d2
    rw [d1, d2, lineTime_eq]
    rw [lineTime_eq] at t2
    rw [← h2] at t1 t2 hcome ⊢
    have hclk : (n.qs (q i)).currentT ≤ u := (hinv.clk _ hfr.lt hs.ne_null).trans hu
    have done : passage (N.qc (q i)).serviceF (comeTime N q i) r ≤ u → r < (atStage 2 (stamps (n.qs (q i)) l)).length :=
      fun hr => Traj.done hfr.kind hf (hl.one i hi) h1 (fun r t ht => by
        rw [List.getElem?_map, Option.map_eq_some_iff] at ht
        obtain ⟨p, hp, rfl⟩ := ht
        rw [t1 r p hp]) (hu' i hi) hcome hr
    refine ⟨⟨fun hr => ?_, hcome r⟩, ⟨fun hr => ?_, done⟩, done⟩
    · have := hin.early _ (List.getElem_mem hr)
      rw [t1 r _ (List.getElem?_eq_getElem hr)] at this
      exact this.trans hclk
    · have := hin.past _ (List.getElem_mem hr)
      rw [t2 r _ (List.getElem?_eq_getElem hr)] at this
      exact this.trans hclk
  have all : ∀ i ≤ m, ∀ r, (r < (n.qs (q i)).numArrivals ↔ comeTime N q i r ≤ u) ∧
        (r < (n.qs (q i)).numDepartures ↔ lineTime N q i r ≤ u) ∧
        (lineTime N q i r ≤ u → r < (atStage 2 (netStamps (q i) n L)).length) := by
    intro i
    induction i with
    | zero =>
      intro hi
      refine fin hi (fed := False) (fun _ => hl.first) fun r hr => ?_
      have hfr := hl.free 0 hi
      have hs : Simple (N.qc (q 0)) := .inl hfr.kind
      obtain ⟨l, h1, h2⟩ := NetTraj.line hN hmax h hfr (fed := False) fun _ => hl.first
      have hA := Traj.mono (fun _ _ => LineOp.alone) h1
      have hal := Traj.alone hl.source hA
      have hb := hA.reach.base hs
      obtain ⟨x, r1, -, r2, r3, r4⟩ := hal.run hact
      rw [← h2]
      by_contra hcon
      have hmono : Monotone (drawn (N.qc (q 0)).arrivalF 0 0) :=
        monotone_nat_of_le_succ fun k => (hN.fwd _ hfr.lt).1 _ _
      have h3 : x.time ≤ u := by
        rw [r2, r3, r4]
        exact (hmono (by omega)).trans hr
      have h4 : (n.qs (q 0)).time ≤ x.time := by
        rw [hb.time, nextTime]
        exact (min_le_left _ _).trans (hb.okA.le x (by rw [r1]; simp))
      exact absurd (h4.trans h3) (not_le.mpr (hu' 0 hi))
    | succ i ih =>
      intro hi
      obtain ⟨-, hfl⟩ := NetTraj.flow hN hmax h (hl.free i (by omega)) (hl.free (i + 1) hi) (hl.fed i hi) ⟨i, hi, rfl⟩
      exact fin hi (fed := True) (by simp) fun r hr => by
        rw [hfl]
        exact (ih (by omega) r).2.2 hr
  exact ⟨(all i hi r).1, (all i hi r).2.1⟩

section
open Filter Topology MeasureTheory ProbabilityTheory

/-- From the times of events to their number. -/
theorem rate_of_times {D : ℕ → ℝ} {M : ℝ} (hM : 0 < M) (hD : Tendsto (fun r : ℕ => D r / r) atTop (𝓝 M)) {ε : ℝ} (hε : 0 < ε) :
    ∃ U : ℝ, ∀ u ≥ U, ∀ K : ℕ, (∀ r, r < K ↔ D r ≤ u) → |K / u - 1 / M| < ε := by
  have hinv : Tendsto (fun x : ℝ => x⁻¹) (𝓝 M) (𝓝 M⁻¹) := tendsto_inv₀ hM.ne'
  obtain ⟨δ, hδ, hc⟩ := Metric.tendsto_nhds_nhds.mp hinv ε hε
  have hD' : Tendsto (fun r : ℕ => D r / ((r + 1 : ℕ) : ℝ)) atTop (𝓝 M) := by
    have h1 : Tendsto (fun n : ℕ => (n : ℝ) / (n + 1)) atTop (𝓝 1) := tendsto_natCast_div_add_atTop 1
    have := hD.mul h1
    rw [mul_one] at this
    refine this.congr' ?_
    filter_upwards [eventually_gt_atTop 0] with n hn
    have : (n : ℝ) ≠ 0 := by exact_mod_cast hn.ne'
    push_cast
    field_simp
  obtain ⟨R1, h1⟩ := Metric.tendsto_atTop.mp hD δ hδ
  obtain ⟨R2, h2⟩ := Metric.tendsto_atTop.mp hD' δ hδ
  refine ⟨∑ r ∈ Finset.range (R1 + R2 + 2), |D r|, fun u hu K hK => ?_⟩
  have hbig : R1 + R2 + 1 < K := by
    rw [hK]
    refine (le_abs_self _).trans (le_trans ?_ hu)
    exact Finset.single_le_sum (f := fun r => |D r|) (fun _ _ => abs_nonneg _) (Finset.mem_range.mpr (by omega))
  obtain ⟨k, rfl⟩ : ∃ k, K = k + 1 := ⟨K - 1, by omega⟩
  have hpos : (0 : ℝ) < ((k + 1 : ℕ) : ℝ) := by exact_mod_cast Nat.succ_pos k
  have lo : D k ≤ u := (hK k).mp (by omega)
  have hi : u < D (k + 1) := by
    by_contra h
    exact absurd ((hK (k + 1)).mpr (not_lt.mp h)) (by omega)
  have e1 := h1 (k + 1) (by omega)
  have e2 := h2 k (by omega)
  rw [Real.dist_eq, abs_lt] at e1 e2
  have a1 : D k / ((k + 1 : ℕ) : ℝ) ≤ u / ((k + 1 : ℕ) : ℝ) := by gcongr
  have a2 : u / ((k + 1 : ℕ) : ℝ) ≤ D (k + 1) / ((k + 1 : ℕ) : ℝ) := by gcongr
  have := hc (x := u / ((k + 1 : ℕ) : ℝ)) (by rw [Real.dist_eq, abs_lt]; constructor <;> linarith)
  rw [Real.dist_eq, inv_div] at this
  rwa [one_div]

variable {Ω : Type*} [MeasurableSpace Ω] {P : Measure Ω} [IsProbabilityMeasure P] {A : ℕ → Ω → ℝ} {S : ℕ → ℕ → Ω → ℝ}

/-- C136: under the hypotheses of C135, with probability 1, for every queue of the line `num_departures` divided by the time
tends to 1 over the greatest mean `M`, in all histories alike: it is within `ε` of it at every time `u ≥ U` between events. -/
theorem C136_rate {R : Type*} [LinearOrder R] [Add R] {N : Ω → NetCfg (WithTop ℝ) R} {q : ℕ → Nat} {m : ℕ}
    (hN : ∀ ω, (N ω).OkA) (hmax : ∀ ω, (N ω).maxAgents = .inf) (hl : ∀ ω, Line (N ω) q m)
    (ht : ∀ ω, Times (N ω) q m (A · ω) fun i j => S i j ω)
    (hA : Integrable (A 0) P) (hAi : Pairwise fun i j => IndepFun (A i) (A j) P)
    (hAd : ∀ i, IdentDistrib (A i) (A 0) P P) (hpos : 0 < ∫ ω, A 0 ω ∂P)
    (hS : ∀ i ≤ m, Integrable (S i 0) P) (hSi : ∀ i ≤ m, Pairwise fun j k => IndepFun (S i j) (S i k) P)
    (hSd : ∀ i ≤ m, ∀ j, IdentDistrib (S i j) (S i 0) P P) :
    ∀ᵐ ω ∂P, ∀ i ≤ m, ∀ M, IsGreatest (insert (∫ ω, A 0 ω ∂P) ((fun j => ∫ ω, S j 0 ω ∂P) '' Set.Iic i)) M →
      ∀ ε > 0, ∃ U : ℝ, ∀ u ≥ U, ∀ b n L, NetTraj (N ω) b (LineOk (Downstream q m)) n L → (n.qs (q 0)).active = true →
        n.t ≤ (u : WithTop ℝ) → (∀ j ≤ m, (u : WithTop ℝ) < (n.qs (q j)).time) →
        |(n.qs (q i)).numDepartures / u - 1 / M| < ε := by
  have kA := strong_law_ae_real (μ := P) A hA hAi hAd
  have kS : ∀ᵐ ω ∂P, ∀ i ≤ m,
      Tendsto (fun n : ℕ => (∑ j ∈ Finset.range n, S i j ω) / n) atTop (𝓝 (∫ ω, S i 0 ω ∂P)) := by
    rw [ae_all_iff]
    intro i
    by_cases hi : i ≤ m
    · filter_upwards [strong_law_ae_real (μ := P) (S i) (hS i hi) (hSi i hi) (hSd i hi)] with ω h _
      exact h
    · exact ae_of_all _ fun ω h => absurd h hi
  filter_upwards [kA, kS] with ω h1 h2
  intro i hi M hM ε hε
  have hlim := lineReal_limit (A := (A · ω)) (S := fun i j => S i j ω) h1 i (fun j hj => h2 j (hj.trans hi)) hM
  obtain ⟨U, hU⟩ := rate_of_times (hpos.trans_le (hM.2 (Set.mem_insert _ _))) hlim hε
  refine ⟨U, fun u hu b n L h hact hu1 hu2 => hU u hu _ fun r => ?_⟩
  rw [(C136_counts (hN ω) (hmax ω) (hl ω) h hact hu1 hu2 hi r).2, (ht ω).line hi]
  exact WithTop.coe_le_coe

end

/-- At time 10 four agents have come to the second queue of the example of C135, and two have left it. -/
example : (rowAt 2 3 16).t = 10 ∧ ((rowAt 2 3 16).qs 0).active = true ∧ ((rowAt 2 3 16).qs 0).time = 11 ∧ ((rowAt 2 3 16).qs 1).time = 12 ∧
    ((rowAt 2 3 16).qs 1).numArrivals = 4 ∧ ((rowAt 2 3 16).qs 1).numDepartures = 2 ∧
    (List.range 6).map (comeTime (rowOf 2 3) id 1) = [3, 5, 7, 9, 11, 13] ∧
    (List.range 4).map (lineTime (rowOf 2 3) id 1) = [6, 9, 12, 15] := by
  decide +kernel

example (r : ℕ) : (r < ((rowAt 2 3 16).qs 1).numArrivals ↔ comeTime (rowOf 2 3) id 1 r ≤ 10) ∧
    (r < ((rowAt 2 3 16).qs 1).numDepartures ↔ lineTime (rowOf 2 3) id 1 r ≤ 10) := by
  refine C136_counts (rowOf_ok 2 3) rfl (rowOf_line 2 3) (rowAt_traj (m := 16) (by decide +kernel)) (by decide +kernel) (by decide +kernel) (fun i hi => ?_) le_rfl r
  interval_cases i <;> decide +kernel

/-- Arrivals every 1, services that take 1 and 3: agents leave the line at rate 1/3. -/
example (ε : ℝ) (hε : ε > 0) : ∃ U : ℝ, ∀ u ≥ U, ∀ b n L,
    NetTraj (lineNet 1 (fun _ => 1) fun i _ => if i = 1 then 3 else 1) b (LineOk (Downstream id 1)) n L →
    (n.qs 0).active = true → n.t ≤ (u : WithTop ℝ) → (∀ j ≤ 1, (u : WithTop ℝ) < (n.qs j).time) →
    |(n.qs 1).numDepartures / u - 1 / 3| < ε := by
  have ok := lineNet_ok 1 (A := fun _ => 1) (S := fun i _ => if i = 1 then 3 else 1) (fun _ => zero_le_one)
    fun i j => by split <;> norm_num
  have key := C136_rate (P := MeasureTheory.Measure.dirac ()) (A := fun _ _ => 1) (S := fun i _ _ => if i = 1 then 3 else 1)
    (fun _ => ok.1) (fun _ => ok.2.1) (fun _ => ok.2.2.1) (fun _ => ok.2.2.2) (MeasureTheory.integrable_const _)
    (fun _ _ _ => ProbabilityTheory.indepFun_const_left _ _) (fun _ => .refl aemeasurable_const) (by simp)
    (fun _ _ => MeasureTheory.integrable_const _) (fun _ _ _ _ _ => ProbabilityTheory.indepFun_const_left _ _)
    (fun _ _ _ => .refl aemeasurable_const)
  rw [MeasureTheory.ae_dirac_iff (by simp)] at key
  refine key 1 le_rfl 3 ⟨.inr ⟨1, by simp, by simp⟩, ?_⟩ ε hε
  rintro x (rfl | ⟨j, hj, rfl⟩)
  · simp
  · simp only [MeasureTheory.integral_const]; split <;> simp

end Verif.NetSpec
