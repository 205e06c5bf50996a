import Verif.Props.QueueStable
import Verif.Props.QueueOrder

/-! # C134: departures from a queue with one server, and how busy it is, in the long run -/

set_option linter.unusedSectionVars false

namespace Verif.QueueSpec

open Filter Topology MeasureTheory ProbabilityTheory

namespace OneServer

variable {c : QCfg (WithTop ℝ)} {A S : ℕ → ℝ}

/-- The facts about order that hold with one server. -/
theorem order (h : OneServer c A S) {b : Bool} {s : QS (WithTop ℝ)} {l : List (QS (WithTop ℝ))}
    (ht : Traj c b AloneOk s l) :
    (atStage 2 (stamps s l)).map Prod.fst ++ (inService s).map (·.id) = (atStage 1 (stamps s l)).map Prod.fst ∧
    (inService s).length ≤ 1 := by
  have hk : Simple c := .inl h.kind
  have hT : Traj c b FcfsOk s l := Traj.mono (fun _ _ => AloneOk.fcfs) ht
  have hl := C83_stamps_log hk hT
  have e : ∀ k, (atStage k (stamps s l)).map Prod.fst = stageIds k s.log := by
    intro k
    rw [← hl]
    generalize stamps s l = L
    induction L with
    | nil => rfl
    | cons x L ih =>
      simp only [atStage, stageIds, List.filterMap_cons, List.map_cons, List.filter_cons] at ih ⊢
      by_cases hx : x.2.1 = k
      · simp [hx, ih]
      · simp [hx, ih]
  have hR : Reach c b StaysOne s := (Traj.mono (fun _ _ h => by
    rcases h with rfl | rfl | ⟨x, rfl⟩ <;> intro n hn <;> cases hn) ht).reach
  have hi : OneInv s ∧ QInv s := hR.induct (P := fun s => OneInv s ∧ QInv s) hk
    ⟨⟨h.servers, by simp [QS.init, inService], by simp [QS.init, inService]⟩, QInv.init c b⟩
    fun _ _ _ hb hi hx ho => ⟨hi.1.step hk hi.2 hx ho, hi.2.step hk hb ho⟩
  rw [e, e]
  exact ⟨hi.1.ord, hi.1.le⟩

/-- When the `i`-th agent leaves. -/
theorem left (h : OneServer c A S) {b : Bool} {s : QS (WithTop ℝ)} {l : List (QS (WithTop ℝ))}
    (ht : Traj c b AloneOk s l) (i : ℕ) (p : (Nat × Nat) × WithTop ℝ) (hp : (atStage 2 (stamps s l))[i]? = some p) :
    p = ((c.edge.idx, i), ((∑ j ∈ Finset.range (i + 1), A j + wait A S i + S i : ℝ) : WithTop ℝ)) := by
  have hk : Simple c := .inl h.kind
  have hT : Traj c b FcfsOk s l := Traj.mono (fun _ _ => AloneOk.fcfs) ht
  have hin := hT.fcfsInv hk h.forward rfl
  obtain ⟨ho, -⟩ := h.order ht
  obtain ⟨hi, -⟩ := List.getElem?_eq_some_iff.mp hp
  have hlen : i < (atStage 1 (stamps s l)).length := by
    have := congrArg List.length ho
    simp at this
    omega
  obtain ⟨q, hq⟩ : ∃ q, (atStage 1 (stamps s l))[i]? = some q := ⟨_, List.getElem?_eq_getElem hlen⟩
  have hq' := (h.times ht i).2 q hq
  have hid : p.1 = (c.edge.idx, i) := by
    have h1 : ((atStage 1 (stamps s l)).map Prod.fst)[i]? = some p.1 := by
      rw [← ho, List.getElem?_append_left (by simpa using hi), List.getElem?_map, hp]
      rfl
    rw [List.getElem?_map, hq, hq'] at h1
    simpa using h1.symm
  have hmem : p ∈ ((atStage 1 (stamps s l)).map Prod.fst).zip
      (ends c.serviceF ((atStage 1 (stamps s l)).map Prod.snd)) :=
    hin.out.subset (List.mem_append_right _ (List.mem_of_getElem? hp))
  obtain ⟨j, hj⟩ := List.mem_iff_getElem?.mp hmem
  rw [List.getElem?_zip_eq_some] at hj
  obtain ⟨h1, h2⟩ := hj
  rw [List.getElem?_map, Option.map_eq_some_iff] at h1
  obtain ⟨r, hr, hr1⟩ := h1
  have hr' := (h.times ht j).2 r hr
  have hji : j = i := by
    rw [hr', hid] at hr1
    exact (Prod.ext_iff.mp hr1).2
  subst hji
  simp only [ends, List.getElem?_mapIdx, List.getElem?_map, hr, Option.map_some, Option.some.injEq, hr', h.svc] at h2
  refine Prod.ext hid ?_
  rw [← h2]
  norm_cast

/-- Everybody leaves. -/
theorem leaves (h : OneServer c A S) (hA : ∀ x, ∃ n, x < ∑ j ∈ Finset.range n, A j) {b : Bool} {s : QS (WithTop ℝ)}
    {l : List (QS (WithTop ℝ))} (ht : Traj c b AloneOk s l) (ha : s.active = true) (i : ℕ) :
    ∃ s' l', Traj c b AloneOk s' l' ∧ (s :: l) <:+ (s' :: l') ∧ i < (atStage 2 (stamps s' l')).length := by
  obtain ⟨s', l', h1, h2, h3⟩ := h.starts hA ht ha (i + 1)
  refine ⟨s', l', h1, h2, ?_⟩
  obtain ⟨h4, h5⟩ := h.order h1
  have := congrArg List.length h4
  simp at this
  omega

end OneServer

theorem last_small {S : ℕ → ℝ} {σ : ℝ} (h : Tendsto (fun n : ℕ => (∑ j ∈ Finset.range n, S j) / n) atTop (𝓝 σ)) :
    Tendsto (fun n : ℕ => (∑ j ∈ Finset.range (n + 1), S j) / n) atTop (𝓝 σ) ∧
    Tendsto (fun n : ℕ => S n / n) atTop (𝓝 0) := by
  have h1 : Tendsto (fun n : ℕ => (∑ j ∈ Finset.range (n + 1), S j) / ((n + 1 : ℕ) : ℝ)) atTop (𝓝 σ) :=
    h.comp (tendsto_add_atTop_nat 1)
  have h2 : Tendsto (fun n : ℕ => 1 + 1 / (n : ℝ)) atTop (𝓝 (1 + 0)) :=
    tendsto_const_nhds.add (tendsto_const_div_atTop_nhds_zero_nat 1)
  have h3 : Tendsto (fun n : ℕ => (∑ j ∈ Finset.range (n + 1), S j) / n) atTop (𝓝 σ) := by
    have := h1.mul h2
    rw [add_zero, mul_one] at this
    refine this.congr' ?_
    filter_upwards [eventually_gt_atTop 0] with n hn
    have : (n : ℝ) ≠ 0 := by exact_mod_cast hn.ne'
    push_cast
    field_simp
  refine ⟨h3, ?_⟩
  have := h3.sub h
  rw [sub_self] at this
  refine this.congr fun n => ?_
  rw [Finset.sum_range_succ]
  ring

theorem left_limit {A S : ℕ → ℝ} {α σ : ℝ} (hA : Tendsto (fun n : ℕ => (∑ j ∈ Finset.range n, A j) / n) atTop (𝓝 α))
    (hS : Tendsto (fun n : ℕ => (∑ j ∈ Finset.range n, S j) / n) atTop (𝓝 σ)) :
    Tendsto (fun n : ℕ => (∑ j ∈ Finset.range (n + 1), A j + wait A S n + S n) / n) atTop (𝓝 (max α σ)) := by
  have he : Tendsto (fun n : ℕ => excess A S n / n) atTop (𝓝 (σ - α)) := by
    have h0 : Tendsto (fun n : ℕ => A 0 / (n : ℝ)) atTop (𝓝 0) := tendsto_const_div_atTop_nhds_zero_nat _
    have := (hS.sub (last_small hA).1).add h0
    rw [add_zero] at this
    refine this.congr fun n => ?_
    rw [excess, Finset.sum_sub_distrib, Finset.sum_range_succ' A]
    ring
  have := ((last_small hA).1.add (wait_limit he)).add (last_small hS).2
  have e : α + max 0 (σ - α) + 0 = max α σ := by
    rw [add_zero, ← max_add_add_left]
    congr 1 <;> ring
  rw [e] at this
  refine this.congr fun n => ?_
  ring

/-- C134: a queue as in C133: the `i`-th agent leaves at the end of its service, in the order of arrival. -/
theorem C134_departures {c : QCfg (WithTop ℝ)} {A S : ℕ → ℝ} (h : OneServer c A S) {b : Bool} {s : QS (WithTop ℝ)}
    {l : List (QS (WithTop ℝ))} (ht : Traj c b AloneOk s l) (i : ℕ) (p : (Nat × Nat) × WithTop ℝ)
    (hp : (atStage 2 (stamps s l))[i]? = some p) :
    p = ((c.edge.idx, i), ((∑ j ∈ Finset.range (i + 1), A j + wait A S i + S i : ℝ) : WithTop ℝ)) :=
  h.left ht i p hp

section
variable {Ω : Type*} [MeasurableSpace Ω] {P : Measure Ω} [IsProbabilityMeasure P] {A S : ℕ → Ω → ℝ}

/-- C134: if the times between arrivals and the services are independent, each of one law, with means `α > 0` and `σ`,
then with probability 1 there are times `B n` and `L n` such that in every history of the queue the service of the `n`-th
agent starts at `B n` and it leaves at `L n`, once the queue is active everybody leaves in the end, `L n / n` tends to
`max α σ`, and the share of the time until `L n` for which the server is busy tends to `σ / max α σ`. -/
theorem C134_throughput (h : RenewalInput P A S) (hpos : 0 < ∫ ω, A 0 ω ∂P) {c : Ω → QCfg (WithTop ℝ)}
    (hc : ∀ ω, OneServer (c ω) (A · ω) (S · ω)) :
    ∀ᵐ ω ∂P, ∃ B L : ℕ → ℝ,
      (∀ b s l, Traj (c ω) b AloneOk s l →
        (∀ n p, (atStage 1 (stamps s l))[n]? = some p → p = (((c ω).edge.idx, n), (B n : WithTop ℝ))) ∧
        (∀ n p, (atStage 2 (stamps s l))[n]? = some p → p = (((c ω).edge.idx, n), (L n : WithTop ℝ))) ∧
        (s.active = true → ∀ n, ∃ s' l', Traj (c ω) b AloneOk s' l' ∧ (s :: l) <:+ (s' :: l') ∧
          n < (atStage 2 (stamps s' l')).length)) ∧
      Tendsto (fun n : ℕ => L n / n) atTop (𝓝 (max (∫ ω, A 0 ω ∂P) (∫ ω, S 0 ω ∂P))) ∧
      Tendsto (fun n : ℕ => (∑ j ∈ Finset.range (n + 1), (L j - B j)) / L n) atTop
        (𝓝 ((∫ ω, S 0 ω ∂P) / max (∫ ω, A 0 ω ∂P) (∫ ω, S 0 ω ∂P))) := by
  have kA := strong_law_ae_real (μ := P) A h.arr_int
    (fun i j hij => h.indep.indepFun (i := .inl i) (j := .inl j) (by simpa using hij)) h.arr
  have kS := strong_law_ae_real (μ := P) S h.svc_int
    (fun i j hij => h.indep.indepFun (i := .inr i) (j := .inr j) (by simpa using hij)) h.svc
  filter_upwards [kA, kS, h.unbounded hpos] with ω hA hS hU
  have hL := left_limit hA hS
  refine ⟨fun n => ∑ j ∈ Finset.range (n + 1), A j ω + wait (A · ω) (S · ω) n,
    fun n => ∑ j ∈ Finset.range (n + 1), A j ω + wait (A · ω) (S · ω) n + S n ω,
    fun b s l ht => ⟨fun n => ((hc ω).times ht n).2, (hc ω).left ht, fun ha n => (hc ω).leaves hU ht ha n⟩, hL, ?_⟩
  have hm : max (∫ ω, A 0 ω ∂P) (∫ ω, S 0 ω ∂P) ≠ 0 := (hpos.trans_le (le_max_left _ _)).ne'
  refine ((last_small hS).1.div hL hm).congr' ?_
  filter_upwards [eventually_gt_atTop 0] with n hn
  have : (n : ℝ) ≠ 0 := by exact_mod_cast hn.ne'
  simp only [Pi.div_apply, add_sub_cancel_left]
  rw [div_div_div_cancel_right₀ this]

end

/-- Arrivals at 1, 2, 3, ..., services that take 3: there is a history in which the fifth agent leaves, at 16. -/
example : ∃ s l, Traj (givenQueue (fun _ => 1) fun _ => 3) true AloneOk s l ∧
    (atStage 2 (stamps s l))[4]? = some ((7, 4), ((16 : ℝ) : WithTop ℝ)) := by
  have h : OneServer (givenQueue (fun _ => 1) fun _ => 3) (fun _ => 1) fun _ => 3 :=
    givenQueue_one (fun _ => by norm_num) fun _ => by norm_num
  obtain ⟨s, h1, h2⟩ := h.endless.start true
  obtain ⟨s', l', h3, -, h4⟩ := h.leaves (fun x => by simpa using exists_nat_gt x) h1 h2 4
  refine ⟨s', l', h3, ?_⟩
  rw [List.getElem?_eq_getElem h4]
  congr 1
  rw [C134_departures h h3 4 _ (List.getElem?_eq_getElem h4)]
  have hw : wait (fun _ => 1) (fun _ => 3) 4 = 8 := by norm_num [wait]
  rw [hw]
  norm_num [givenQueue]

/-- Services that take 0 or 3 with probability 1/2 each. Arrivals every 2: agents leave at rate 1/2 and the server is busy
for 3/4 of the time. Arrivals every 1: agents leave at rate 2/3 and the server is always busy, but for a share that tends
to 0. -/
example (d : ℝ) (hd : 0 < d) : ∀ᵐ ω ∂Measure.infinitePi (laws (Measure.dirac d) coin), ∃ B L : ℕ → ℝ,
    (∀ b s l, Traj (givenQueue (fun i => |ω (.inl i)|) fun i => |ω (.inr i)|) b AloneOk s l →
      (∀ n p, (atStage 1 (stamps s l))[n]? = some p → p = ((7, n), (B n : WithTop ℝ))) ∧
      (∀ n p, (atStage 2 (stamps s l))[n]? = some p → p = ((7, n), (L n : WithTop ℝ)))) ∧
    (d = 2 → Tendsto (fun n : ℕ => L n / n) atTop (𝓝 2) ∧
      Tendsto (fun n : ℕ => (∑ j ∈ Finset.range (n + 1), (L j - B j)) / L n) atTop (𝓝 (3 / 4))) ∧
    (d = 1 → Tendsto (fun n : ℕ => L n / n) atTop (𝓝 (3 / 2)) ∧
      Tendsto (fun n : ℕ => (∑ j ∈ Finset.range (n + 1), (L j - B j)) / L n) atTop (𝓝 1)) := by
  obtain ⟨h1, h2, h3, h4⟩ := C133_met (Measure.dirac d) coin (integrable_dirac (by simp)) coin_int
  rw [integral_dirac, abs_of_pos hd] at h2
  rw [coin_mean] at h3
  have key := C134_throughput h1 (by rw [h2]; exact hd) h4
  rw [h2, h3] at key
  filter_upwards [key] with ω ⟨B, L, g1, g2, g3⟩
  refine ⟨B, L, fun b s l ht => ⟨(g1 b s l ht).1, (g1 b s l ht).2.1⟩, ?_, ?_⟩
  · rintro rfl
    rw [max_eq_left (by norm_num)] at g2 g3
    exact ⟨g2, by convert g3 using 2; norm_num⟩
  · rintro rfl
    rw [max_eq_right (by norm_num)] at g2 g3
    exact ⟨g2, by convert g3 using 2; norm_num⟩

end Verif.QueueSpec
