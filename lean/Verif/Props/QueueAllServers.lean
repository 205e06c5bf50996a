import Verif.Props.QueueLeftMean

/-! # C151: a queue with infinitely many servers -/

set_option linter.unusedSectionVars false

namespace Verif.QueueSpec

open Filter Topology MeasureTheory ProbabilityTheory

/-- As `OneServer`, with infinitely many servers. -/
structure AllServers (c : QCfg (WithTop ℝ)) (A S : ℕ → ℝ) : Prop where
  kind : c.kind = .server
  servers : c.servers = .inf
  cap : c.activeCap = .inf
  deactive : c.deactiveT = ⊤
  arr : ∀ j t, c.arrivalF j t = t + (A j : ℝ)
  svc : ∀ j t, c.serviceF j t = t + (S j : ℝ)
  arr_nonneg : ∀ j, 0 ≤ A j
  svc_nonneg : ∀ j, 0 ≤ S j

namespace AllServers

variable {c : QCfg (WithTop ℝ)} {A S : ℕ → ℝ}

theorem endless (h : AllServers c A S) : Endless c where
  kind := h.kind
  cap := h.cap
  deactive := h.deactive
  zero := WithTop.coe_lt_top (0 : ℝ)
  fin j t ht := by
    rw [h.arr]
    exact WithTop.add_lt_top.mpr ⟨ht, WithTop.coe_lt_top _⟩

theorem forward (h : AllServers c A S) : Forward c :=
  ⟨fun n t => by rw [h.arr]; exact OneServer.le_add_coe t (h.arr_nonneg n),
    fun n t => by rw [h.svc]; exact OneServer.le_add_coe t (h.svc_nonneg n)⟩

theorem drawn_eq (h : AllServers c A S) (n : ℕ) :
    NetSpec.drawn c.arrivalF 0 0 n = ((∑ j ∈ Finset.range n, A j : ℝ) : WithTop ℝ) := by
  induction n with
  | zero => rfl
  | succ n ih =>
    rw [NetSpec.drawn, ih, h.arr, Finset.sum_range_succ, Nat.zero_add]
    norm_cast

/-- Nobody waits, and services start when agents come. -/
theorem times (h : AllServers c A S) {b : Bool} {s : QS (WithTop ℝ)} {l : List (QS (WithTop ℝ))}
    (ht : Traj c b AloneOk s l) : s.queue = [] ∧ (atStage 1 (stamps s l)).length = (atStage 0 (stamps s l)).length ∧
    ∀ i, (∀ p, (atStage 0 (stamps s l))[i]? = some p →
      p = ((c.edge.idx, i), ((∑ j ∈ Finset.range (i + 1), A j : ℝ) : WithTop ℝ))) ∧
    ∀ p, (atStage 1 (stamps s l))[i]? = some p →
      p = ((c.edge.idx, i), ((∑ j ∈ Finset.range (i + 1), A j : ℝ) : WithTop ℝ)) := by
  have hk : Simple c := .inl h.kind
  have hf := h.forward
  have hT : Traj c b FcfsOk s l := Traj.mono (fun _ _ => AloneOk.fcfs) ht
  have hal := Traj.alone h.endless ht
  have hin := hT.fcfsInv hk hf rfl
  obtain ⟨hids, hst, -⟩ := C83_start_times hk hf hT
  have hq : s.queue = [] := by
    by_contra hne
    have := (ht.reach.inv hk).work hne
    rw [hin.srv, h.servers] at this
    cases this
  have len : (atStage 1 (stamps s l)).length = (atStage 0 (stamps s l)).length := by
    have := congrArg List.length hids
    rw [hq] at this
    simpa using this
  have arr : ∀ (i : ℕ) (p : (Nat × Nat) × WithTop ℝ), (atStage 0 (stamps s l))[i]? = some p →
      p = ((c.edge.idx, i), ((∑ j ∈ Finset.range (i + 1), A j : ℝ) : WithTop ℝ)) := by
    intro i p hp
    rw [hal.made] at hp
    obtain ⟨hi, hp⟩ := List.getElem?_eq_some_iff.mp hp
    rw [← hp]
    simp [h.drawn_eq]
  refine ⟨hq, len, fun i => ⟨arr i, fun p hp => ?_⟩⟩
  obtain ⟨hi, -⟩ := List.getElem?_eq_some_iff.mp hp
  obtain ⟨q, hq1⟩ : ∃ q, (atStage 0 (stamps s l))[i]? = some q := ⟨_, List.getElem?_eq_getElem (by omega)⟩
  have id1 : p.1 = q.1 := by
    have h1 : ((atStage 1 (stamps s l)).map Prod.fst ++ s.queue.map (·.id))[i]? = some p.1 := by
      rw [List.getElem?_append_left (by simpa using hi), List.getElem?_map, hp]
      rfl
    rw [hids, List.getElem?_map, hq1] at h1
    simpa using h1.symm
  have hs := hst i q.2 p.2 (by rw [List.getElem?_map, hq1]; rfl) (by rw [List.getElem?_map, hp]; rfl)
  obtain ⟨⟨t1, -⟩, t3⟩ := hs
  have h2 : p.2 = q.2 := le_antisymm (t3 _ le_rfl (by rw [h.servers]; rfl)) t1
  rw [← arr i q hq1]
  exact Prod.ext id1 h2

end AllServers

/-- C151: at a time `u` between two events of a history of a queue with infinitely many servers that is run by itself and is
active, those agents have come whose time to come is at most `u`, those of them have left whose time to come and service end by
`u`, and the others are there. -/
theorem C151_counts {c : QCfg (WithTop ℝ)} {A S : ℕ → ℝ} (h : AllServers c A S) {b : Bool} {s : QS (WithTop ℝ)}
    {l : List (QS (WithTop ℝ))} (ht : Traj c b AloneOk s l) (ha : s.active = true) {u : ℝ}
    (hu : s.currentT ≤ (u : WithTop ℝ)) (hu' : (u : WithTop ℝ) < s.time) :
    (∀ n, n < s.numArrivals ↔ ∑ j ∈ Finset.range (n + 1), A j ≤ u) ∧
    s.numDepartures = {n | ∑ j ∈ Finset.range (n + 1), A j + S n ≤ u}.ncard ∧
    {n | ∑ j ∈ Finset.range (n + 1), A j ≤ u ∧ u < ∑ j ∈ Finset.range (n + 1), A j + S n}.Finite ∧
    s.numSystem = {n | ∑ j ∈ Finset.range (n + 1), A j ≤ u ∧ u < ∑ j ∈ Finset.range (n + 1), A j + S n}.ncard := by
  have hk : Simple c := .inl h.kind
  have hf := h.forward
  have hT : Traj c b FcfsOk s l := Traj.mono (fun _ _ => AloneOk.fcfs) ht
  have hal := Traj.alone h.endless ht
  have hin := hT.fcfsInv hk hf rfl
  have hb := ht.reach.base hk
  obtain ⟨hq, hlen, htimes⟩ := h.times ht
  obtain ⟨d1, d2⟩ := Traj.alone_numbers hk ht
  rw [← NetSpec.stage_length hk hT] at d1 d2
  have hmono : Monotone fun n => ∑ j ∈ Finset.range n, A j := by
    refine monotone_nat_of_le_succ fun n => ?_
    rw [Finset.sum_range_succ]
    exact le_add_of_nonneg_right (h.arr_nonneg n)
  have arrived : ∀ n, n < (atStage 0 (stamps s l)).length ↔ ∑ j ∈ Finset.range (n + 1), A j ≤ u := by
    intro n
    constructor
    · intro hn
      have h1 := hin.early _ (List.getElem_mem hn)
      rw [(htimes n).1 _ (List.getElem?_eq_getElem hn)] at h1
      exact WithTop.coe_le_coe.mp (h1.trans hu)
    · intro hn
      obtain ⟨x, r1, -, r2, r3, r4⟩ := hal.run ha
      by_contra hcon
      have h3 : x.time ≤ (u : WithTop ℝ) := by
        rw [r2, r3, r4, h.drawn_eq]
        exact WithTop.coe_le_coe.mpr ((hmono (by omega)).trans hn)
      have h4 : s.time ≤ x.time := by
        rw [hb.time, nextTime]
        exact (min_le_left _ _).trans (hb.okA.le x (by rw [r1]; simp))
      exact absurd (h4.trans h3) (not_le.mpr hu')
  have late : ∀ a ∈ agents s.departures, (u : WithTop ℝ) < a.time := fun a ha => by
    refine hu'.trans_le ?_
    rw [hb.time, nextTime]
    exact (min_le_right _ _).trans (hb.okD.le a ha)
  have hends : ends c.serviceF ((atStage 1 (stamps s l)).map Prod.snd) = (List.range (atStage 0 (stamps s l)).length).map
      fun j => ((∑ i ∈ Finset.range (j + 1), A i + S j : ℝ) : WithTop ℝ) := by
    refine List.ext_getElem? fun j => ?_
    rcases Nat.lt_or_ge j (atStage 1 (stamps s l)).length with hj | hj
    · obtain ⟨u, hu⟩ : ∃ u, (atStage 1 (stamps s l))[j]? = some u := ⟨_, List.getElem?_eq_getElem hj⟩
      have hu' := (htimes j).2 u hu
      simp only [ends, List.getElem?_mapIdx, List.getElem?_map, hu, List.getElem?_range (hlen ▸ hj), Option.map_some]
      rw [hu', h.svc]
      norm_cast
    · rw [List.getElem?_eq_none (by simpa [ends] using hj), List.getElem?_eq_none (by simpa [hlen] using hj)]
  have hperm := hin.out.map Prod.snd
  rw [List.map_append, List.map_snd_zip (by simp [ends]), hends] at hperm
  have hcnt := hperm.countP_eq (· ≤ (u : WithTop ℝ))
  rw [List.countP_append, List.countP_map (f := fun j => ((∑ i ∈ Finset.range (j + 1), A i + S j : ℝ) : WithTop ℝ))] at hcnt
  have h1 : ((agents s.departures).map (fun a => (a.id, a.time)) |>.map Prod.snd).countP (· ≤ (u : WithTop ℝ)) = 0 := by
    refine List.countP_eq_zero.mpr fun x hx => ?_
    simp only [List.map_map, List.mem_map, Function.comp_apply] at hx
    obtain ⟨a, ha1, rfl⟩ := hx
    simpa using late a ha1
  have h2 : ((atStage 2 (stamps s l)).map Prod.snd).countP (· ≤ (u : WithTop ℝ)) = (atStage 2 (stamps s l)).length := by
    rw [List.countP_eq_length.mpr]
    · simp
    · intro x hx
      obtain ⟨p, hp, rfl⟩ := List.mem_map.mp hx
      exact decide_eq_true ((hin.past p hp).trans hu)
  rw [h1, h2, zero_add] at hcnt
  set K := (atStage 0 (stamps s l)).length with hK
  have hcnt' : (atStage 2 (stamps s l)).length =
      ((List.range K).filter fun j => decide (∑ i ∈ Finset.range (j + 1), A i + S j ≤ u)).length := by
    rw [hcnt, ← List.countP_eq_length_filter]
    refine List.countP_congr fun j _ => ?_
    simp only [Function.comp_apply, decide_eq_true_eq, WithTop.coe_le_coe]
  have e : {n | ∑ j ∈ Finset.range (n + 1), A j + S n ≤ u} =
      (((List.range K).filter fun j => decide (∑ i ∈ Finset.range (j + 1), A i + S j ≤ u)).toFinset : Set ℕ) := by
    ext n
    simp only [Set.mem_ofPred_eq, List.coe_toFinset, List.mem_filter, List.mem_range, decide_eq_true_eq]
    refine ⟨fun hn => ⟨(arrived n).mpr ?_, hn⟩, fun hn => hn.2⟩
    have := h.svc_nonneg n
    linarith
  have e' : {n | ∑ j ∈ Finset.range (n + 1), A j ≤ u ∧ u < ∑ j ∈ Finset.range (n + 1), A j + S n} =
      (((List.range K).filter fun j => !decide (∑ i ∈ Finset.range (j + 1), A i + S j ≤ u)).toFinset : Set ℕ) := by
    ext n
    simp only [Set.mem_ofPred_eq, List.coe_toFinset, List.mem_filter, List.mem_range, Bool.not_eq_true', decide_eq_false_iff_not,
      not_le, arrived n]
  have cnt := (ht.reach.inv hk).counts
  refine ⟨fun n => by rw [d2]; exact arrived n, ?_, by rw [e']; exact Finset.finite_toSet _, ?_⟩
  · rw [d1, hcnt', e, Set.ncard_coe_finset, List.toFinset_card_of_nodup (List.nodup_range.filter _)]
  · rw [e', Set.ncard_coe_finset, List.toFinset_card_of_nodup (List.nodup_range.filter _)]
    have h3 := List.length_eq_length_filter_add (l := List.range K) fun j => decide (∑ i ∈ Finset.range (j + 1), A i + S j ≤ u)
    rw [List.length_range] at h3
    omega

/-- C151: there are such states: a history that has not come past time `u` goes on until `u` lies between two of its events. -/
theorem C151_between {c : QCfg (WithTop ℝ)} {A S : ℕ → ℝ} (h : AllServers c A S)
    (hA : ∀ x, ∃ n, x < ∑ j ∈ Finset.range n, A j) {b : Bool} {s : QS (WithTop ℝ)} {l : List (QS (WithTop ℝ))}
    (ht : Traj c b AloneOk s l) (ha : s.active = true) {u : ℝ} (hu : s.currentT ≤ (u : WithTop ℝ)) :
    ∃ s' l', Traj c b AloneOk s' l' ∧ (s :: l) <:+ (s' :: l') ∧ s'.active = true ∧ s'.currentT ≤ (u : WithTop ℝ) ∧
      (u : WithTop ℝ) < s'.time := by
  have hk : Simple c := .inl h.kind
  by_contra hcon
  have on : ∀ n : ℕ, ∃ s' l', Traj c b AloneOk s' l' ∧ (s :: l) <:+ (s' :: l') ∧ s'.active = true ∧
      s'.currentT ≤ (u : WithTop ℝ) ∧ n ≤ (atStage 0 (stamps s' l')).length + (atStage 2 (stamps s' l')).length := by
    intro n
    induction n with
    | zero => exact ⟨s, l, ht, List.suffix_refl _, ha, hu, Nat.zero_le _⟩
    | succ n ih =>
      obtain ⟨s1, l1, g1, g2, g3, g4, g5⟩ := ih
      have hb := g1.reach.base hk
      obtain ⟨s2, r, e1, e0⟩ := nextEvent_spec c s1 hk hb.okA hb.okD
      have hr : QOp.run c s1 .next = .ok s2 := by simp [QOp.run, e1]
      obtain ⟨e2, e3⟩ := (Traj.alone h.endless g1).next_active h.endless g3 hb.okA (opOut c s1 s2 .next hk hb hr)
      refine ⟨s2, s1 :: l1, .step .next g1 (.inl rfl) hr, g2.trans (List.suffix_cons _ _), e2, ?_, by omega⟩
      have h1 : s1.time ≤ (u : WithTop ℝ) := not_lt.mp fun h2 => hcon ⟨s1, l1, g1, g2, g3, g4, h2⟩
      rcases evOut_clock e0 with h2 | h2
      · exact h2.trans_le g4
      · rw [h2, ← nextTime, ← hb.time]; exact h1
  obtain ⟨K, hK⟩ := hA u
  obtain ⟨s', l', g1, -, -, g4, g5⟩ := on (2 * (K + 1))
  have hT : Traj c b FcfsOk s' l' := Traj.mono (fun _ _ => AloneOk.fcfs) g1
  have hin := hT.fcfsInv hk h.forward rfl
  have h2 := hin.out.length_eq
  have h4 := hin.fcfs.1
  simp only [List.length_append, List.length_map, ends, List.length_mapIdx, List.length_zip] at h2 h4
  have hlt : K < (atStage 0 (stamps s' l')).length := by omega
  have h5 := hin.early _ (List.getElem_mem hlt)
  rw [((h.times g1).2.2 K).1 _ (List.getElem?_eq_getElem hlt)] at h5
  have h6 : ∑ j ∈ Finset.range (K + 1), A j ≤ u := WithTop.coe_le_coe.mp (h5.trans g4)
  rw [Finset.sum_range_succ] at h6
  have := h.arr_nonneg K
  linarith

/-- The law of the time at which the `k + 1`-st of exponential times ends. -/
theorem power_density {lam : ℝ} (h0 : 0 < lam) (k : ℕ) {f : ℝ → ENNReal} (hf : Measurable f) :
    ∫⁻ y, f y ∂power (expMeasure lam) (k + 1) =
      ∫⁻ z in Set.Ici 0, f z * ENNReal.ofReal lam * ENNReal.ofReal (Real.exp (-(lam * z)) * (lam * z) ^ k / k.factorial) := by
  have := isProbabilityMeasure_expMeasure h0
  have := power_prob (expMeasure lam) k
  rw [power, Measure.lintegral_conv hf]
  have e1 : ∀ y : ℝ, ∫⁻ a, f (y + a) ∂expMeasure lam = ∫⁻ z, f z * ENNReal.ofReal lam *
      (Set.Iic z).indicator (fun y => ENNReal.ofReal (Real.exp (-(lam * (z - y))))) y := by
    intro y
    rw [exp_lintegral lam (f := fun a => f (y + a)) (hf.comp (measurable_const_add y)), setLIntegral_congr Ioi_ae_eq_Ici, ← lintegral_indicator measurableSet_Ici,
      ← lintegral_sub_right_eq_self _ y]
    refine lintegral_congr fun z => ?_
    by_cases hz : y ≤ z
    · rw [Set.indicator_of_mem (show z - y ∈ Set.Ici (0 : ℝ) by simpa using hz), Set.indicator_of_mem (show y ∈ Set.Iic z from hz),
        ENNReal.ofReal_mul h0.le, show y + (z - y) = z by ring]
      ring
    · rw [Set.indicator_of_notMem (show z - y ∉ Set.Ici (0 : ℝ) by simpa using hz),
        Set.indicator_of_notMem (show y ∉ Set.Iic z from hz), mul_zero]
  simp_rw [e1]
  have hset : MeasurableSet {p : ℝ × ℝ | p.1 ≤ p.2} := measurableSet_le measurable_fst measurable_snd
  have hm : Measurable fun p : ℝ × ℝ => (Set.Iic p.2).indicator (fun y => ENNReal.ofReal (Real.exp (-(lam * (p.2 - y))))) p.1 := by
    have : (fun p : ℝ × ℝ => (Set.Iic p.2).indicator (fun y => ENNReal.ofReal (Real.exp (-(lam * (p.2 - y))))) p.1) =
        {p : ℝ × ℝ | p.1 ≤ p.2}.indicator fun p => ENNReal.ofReal (Real.exp (-(lam * (p.2 - p.1)))) := by
      funext p
      simp only [Set.indicator_apply, Set.mem_Iic, Set.mem_ofPred_eq]
    rw [this]
    exact (by fun_prop : Measurable fun p : ℝ × ℝ => ENNReal.ofReal (Real.exp (-(lam * (p.2 - p.1))))).indicator hset
  rw [lintegral_lintegral_swap (((hf.comp measurable_snd).mul_const _).mul hm).aemeasurable, ← lintegral_indicator measurableSet_Ici]
  refine lintegral_congr fun z => ?_
  have hmz : Measurable fun y => (Set.Iic z).indicator (fun y => ENNReal.ofReal (Real.exp (-(lam * (z - y))))) y :=
    hm.comp (measurable_id.prodMk measurable_const)
  rw [lintegral_const_mul _ hmz, power_poisson h0 k z]
  by_cases hz : 0 ≤ z
  · rw [if_pos hz, Set.indicator_of_mem (by exact hz)]
  · rw [if_neg hz, Set.indicator_of_notMem (by exact hz), mul_zero]

/-- Exponential times end everywhere with the same density. -/
theorem power_sum {lam : ℝ} (h0 : 0 < lam) {f : ℝ → ENNReal} (hf : Measurable f) :
    ∑' k, ∫⁻ y, f y ∂power (expMeasure lam) (k + 1) = ENNReal.ofReal lam * ∫⁻ z in Set.Ici 0, f z := by
  simp_rw [power_density h0 _ hf]
  rw [← lintegral_tsum fun k => by
    have he : Measurable fun z : ℝ => ENNReal.ofReal (Real.exp (-(lam * z)) * (lam * z) ^ k / k.factorial) := by fun_prop
    exact ((hf.mul_const _).mul he).aemeasurable, ← lintegral_const_mul _ hf]
  refine setLIntegral_congr_fun measurableSet_Ici fun z hz => ?_
  rw [ENNReal.tsum_mul_left]
  have hz0 : 0 ≤ lam * z := mul_nonneg h0.le hz
  have h1 : HasSum (fun k : ℕ => Real.exp (-(lam * z)) * (lam * z) ^ k / k.factorial) 1 := by
    have := (NormedSpace.expSeries_div_hasSum_exp (𝔸 := ℝ) (lam * z)).mul_left (Real.exp (-(lam * z)))
    rw [← Real.exp_eq_exp_ℝ, ← Real.exp_add, neg_add_cancel, Real.exp_zero] at this
    simpa only [mul_div_assoc] using this
  rw [← ENNReal.ofReal_tsum_of_nonneg (fun k => by positivity) h1.summable, h1.tsum_eq, ENNReal.ofReal_one]
  ring

section
variable {Ω : Type*} [MeasurableSpace Ω] {P : Measure Ω} [IsProbabilityMeasure P] {A S : ℕ → Ω → ℝ}

/-- When an agent comes does not depend on its service. -/
theorem RenewalInput.come_indep (h : RenewalInput P A S) (n : ℕ) :
    (fun ω => ∑ j ∈ Finset.range (n + 1), A j ω) ⟂ᵢ[P] S n := by
  have h0 := indep_iSup_of_disjoint (fun x => (h.meas x).comap_le) h.indep.iIndep
    (disjoint_compl_left (a := {x : ℕ ⊕ ℕ | x = .inr n}))
  have hone : ∀ T : Set (ℕ ⊕ ℕ), ∀ x ∈ T,
      Measurable[⨆ x ∈ T, (inferInstance : MeasurableSpace ℝ).comap (Sum.elim A S x)] (Sum.elim A S x) := by
    intro T x hx
    exact measurable_iff_comap_le.mpr (le_iSup₂_of_le x hx le_rfl)
  have h1 := hone {x : ℕ ⊕ ℕ | x = .inr n} (.inr n) rfl
  have h2 : Measurable[⨆ x ∈ {x : ℕ ⊕ ℕ | x = .inr n}ᶜ, (inferInstance : MeasurableSpace ℝ).comap (Sum.elim A S x)]
      fun ω => ∑ j ∈ Finset.range (n + 1), A j ω :=
    Finset.measurable_sum _ fun j _ => hone ({x : ℕ ⊕ ℕ | x = .inr n}ᶜ) (.inl j) (by simp)
  refine (IndepFun_iff_Indep _ _ _).mpr ?_
  refine indep_of_indep_of_le_left (indep_of_indep_of_le_right h0 ?_) ?_
  · exact measurable_iff_comap_le.mp h1
  · exact measurable_iff_comap_le.mp h2

/-- The chance that the `n`-th agent is there at time `u`. -/
theorem RenewalInput.there (h : RenewalInput P A S) (n : ℕ) (u : ℝ) :
    P {ω | ∑ j ∈ Finset.range (n + 1), A j ω ≤ u ∧ u < ∑ j ∈ Finset.range (n + 1), A j ω + S n ω} =
      ∫⁻ y, (Set.Iic u).indicator (fun y => P {ω | u - y < S 0 ω}) y ∂power (P.map (A 0)) (n + 1) := by
  have mS : ∀ i, Measurable (S i) := fun i => h.meas (.inr i)
  have mT : Measurable fun ω => ∑ j ∈ Finset.range (n + 1), A j ω := Finset.measurable_sum _ fun j _ => h.meas (.inl j)
  have hset : MeasurableSet {p : ℝ × ℝ | p.1 ≤ u ∧ u < p.1 + p.2} :=
    (measurableSet_le measurable_fst measurable_const).inter
      (measurableSet_lt (f := fun _ : ℝ × ℝ => u) (g := fun p => p.1 + p.2) measurable_const (by fun_prop))
  have e : {ω | ∑ j ∈ Finset.range (n + 1), A j ω ≤ u ∧ u < ∑ j ∈ Finset.range (n + 1), A j ω + S n ω} =
      (fun ω => (∑ j ∈ Finset.range (n + 1), A j ω, S n ω)) ⁻¹' {p : ℝ × ℝ | p.1 ≤ u ∧ u < p.1 + p.2} := rfl
  have hp := h.sum_power 0 (n + 1)
  simp only [zero_add] at hp
  have := Measure.isProbabilityMeasure_map (μ := P) (mS 0).aemeasurable
  rw [e, ← Measure.map_apply (mT.prodMk (mS n)) hset,
    (indepFun_iff_map_prod_eq_prod_map_map mT.aemeasurable (mS n).aemeasurable).mp (h.come_indep n), (h.svc n).map_eq, hp,
    Measure.prod_apply hset]
  refine lintegral_congr fun y => ?_
  by_cases hy : y ≤ u
  · rw [Set.indicator_of_mem (by exact hy), Measure.map_apply (mS 0) (measurable_prodMk_left hset)]
    congr 1
    ext ω
    simp only [Set.mem_preimage, Set.mem_ofPred_eq]
    constructor
    · intro h; linarith [h.2]
    · intro h; exact ⟨hy, by linarith⟩
  · rw [Set.indicator_of_notMem (by exact hy)]
    have : Prod.mk y ⁻¹' {p : ℝ × ℝ | p.1 ≤ u ∧ u < p.1 + p.2} = ∅ := by
      ext x
      simp [hy]
    rw [this, measure_empty]

/-- C151: let times between arrivals be exponential of rate `lam` and services of any one law, all independent. The number of
agents at time `u` in a queue with infinitely many servers has the mean `lam` times the integral of the chance that a service takes
longer than `x`, for `x` from 0 to `u`; and this mean tends to `lam` times the mean service. -/
theorem C151_mean (h : RenewalInput P A S) {lam : ℝ} (h0 : 0 < lam) (hA : P.map (A 0) = expMeasure lam)
    {c : Ω → QCfg (WithTop ℝ)} (hc : ∀ ω, AllServers (c ω) (A · ω) (S · ω)) :
    ∃ N : ℝ → Ω → ENNReal, (∀ u, Measurable (N u)) ∧
      (∀ ω b s l u, Traj (c ω) b AloneOk s l → s.active = true → s.currentT ≤ ((u : ℝ) : WithTop ℝ) →
        (u : WithTop ℝ) < s.time → ∃ k : ℕ, s.numSystem = k ∧ N u ω = k) ∧
      (∀ u, ∫⁻ ω, N u ω ∂P = ENNReal.ofReal lam * ∫⁻ x in Set.Icc 0 u, P {ω | x < S 0 ω}) ∧
      Tendsto (fun u => ∫⁻ ω, N u ω ∂P) atTop (𝓝 (ENNReal.ofReal (lam * ∫ ω, S 0 ω ∂P))) := by
  have hS0 : ∀ i ω, 0 ≤ S i ω := fun i ω => (hc ω).svc_nonneg i
  have mS : ∀ i, Measurable (S i) := fun i => h.meas (.inr i)
  have mT : ∀ n, Measurable fun ω => ∑ j ∈ Finset.range (n + 1), A j ω := fun n =>
    Finset.measurable_sum _ fun j _ => h.meas (.inl j)
  have mset : ∀ u n, MeasurableSet {ω | ∑ j ∈ Finset.range (n + 1), A j ω ≤ u ∧ u < ∑ j ∈ Finset.range (n + 1), A j ω + S n ω} :=
    fun u n => (measurableSet_le (mT n) measurable_const).inter (measurableSet_lt measurable_const ((mT n).add (mS n)))
  set N : ℝ → Ω → ENNReal := fun u ω => ∑' n, {ω | ∑ j ∈ Finset.range (n + 1), A j ω ≤ u ∧
    u < ∑ j ∈ Finset.range (n + 1), A j ω + S n ω}.indicator (fun _ => 1) ω with hN
  have mtail : Measurable fun x : ℝ => P {ω | x < S 0 ω} := by
    have hm : MeasurableSet {p : ℝ × Ω | p.1 < S 0 p.2} := measurableSet_lt measurable_fst ((mS 0).comp measurable_snd)
    exact measurable_measure_prodMk_left hm
  have mean : ∀ u, ∫⁻ ω, N u ω ∂P = ENNReal.ofReal lam * ∫⁻ x in Set.Icc 0 u, P {ω | x < S 0 ω} := by
    intro u
    rw [hN, lintegral_tsum fun n => (measurable_const.indicator (mset u n)).aemeasurable]
    simp_rw [lintegral_indicator_const (mset u _), one_mul, h.there _ u, hA]
    rw [power_sum h0 (f := (Set.Iic u).indicator fun y => P {ω | u - y < S 0 ω})
      ((mtail.comp (measurable_const_sub u)).indicator measurableSet_Iic)]
    congr 1
    rw [setLIntegral_indicator measurableSet_Iic, ← lintegral_indicator (measurableSet_Iic.inter measurableSet_Ici),
      ← lintegral_indicator measurableSet_Icc, ← lintegral_sub_left_eq_self _ u]
    refine lintegral_congr fun z => ?_
    simp only [Set.indicator_apply, Set.mem_inter_iff, Set.mem_Iic, Set.mem_Ici, Set.mem_Icc, sub_sub_cancel, sub_nonneg,
      tsub_le_iff_right, le_add_iff_nonneg_right]
  refine ⟨N, fun u => Measurable.tsum fun n => measurable_const.indicator (mset u n), fun ω b s l u ht ha hu hu' => ?_,
    mean, ?_⟩
  · obtain ⟨-, -, fin, e⟩ := C151_counts (hc ω) ht ha hu hu'
    refine ⟨_, e, ?_⟩
    have e2 : N u ω = ∑' n, {n | ∑ j ∈ Finset.range (n + 1), A j ω ≤ u ∧
        u < ∑ j ∈ Finset.range (n + 1), A j ω + S n ω}.indicator (fun _ => (1 : ENNReal)) n :=
      tsum_congr fun n => by simp only [Set.indicator_apply, Set.mem_ofPred_eq]
    rw [e2, ← tsum_subtype, ENNReal.tsum_set_one, ← fin.cast_ncard_eq]
    rfl
  · simp_rw [mean]
    rw [ENNReal.ofReal_mul h0.le]
    refine ENNReal.Tendsto.const_mul ?_ (.inr ENNReal.ofReal_ne_top)
    rw [ofReal_integral_eq_lintegral_ofReal h.svc_int (Eventually.of_forall (hS0 0)),
      lintegral_eq_lintegral_meas_lt P (Eventually.of_forall (hS0 0)) (mS 0).aemeasurable]
    have cov := (aecover_Iic (μ := volume.restrict (Set.Ioi (0 : ℝ))) (l := atTop) (b := fun u : ℝ => u)
      tendsto_id).lintegral_tendsto_of_countably_generated (f := fun x => P {ω | x < S 0 ω}) mtail.aemeasurable
    refine cov.congr fun u => ?_
    rw [Measure.restrict_restrict measurableSet_Iic, Set.inter_comm, Set.Ioi_inter_Iic]
    exact setLIntegral_congr Ioc_ae_eq_Icc

end

/-- Infinitely many servers, arrivals at 1, 2, 3, ..., services that take 3: there is a state at time 4.5 between events; four agents
have come, one of them has left, and three are there. -/
example : ∃ s l, Traj { givenQueue (fun _ => 1) (fun _ => 3) with servers := .inf } true AloneOk s l ∧ s.active = true ∧
    s.currentT ≤ ((9 / 2 : ℝ) : WithTop ℝ) ∧ ((9 / 2 : ℝ) : WithTop ℝ) < s.time ∧
    s.numArrivals = 4 ∧ s.numDepartures = 1 ∧ s.numSystem = 3 := by
  have h : AllServers { givenQueue (fun _ => 1) (fun _ => 3) with servers := .inf } (fun _ => 1) fun _ => 3 :=
    ⟨rfl, rfl, rfl, rfl, fun _ _ => rfl, fun _ _ => rfl, fun _ => by norm_num, fun _ => by norm_num⟩
  obtain ⟨s0, g1, g2, g3⟩ := start_zero h.endless true
  have hun : ∀ x : ℝ, ∃ n : ℕ, x < ∑ j ∈ Finset.range n, (1 : ℝ) := fun x => by simpa using exists_nat_gt x
  have hz : s0.currentT ≤ ((9 / 2 : ℝ) : WithTop ℝ) := by
    rw [g3]; exact WithTop.coe_le_coe.mpr (by norm_num)
  obtain ⟨s, l, ht, -, ha, hu, hu'⟩ := C151_between h hun g1 g2 hz
  obtain ⟨e1, e2, -, e3⟩ := C151_counts h ht ha hu hu'
  have n4 : s.numArrivals = 4 := by
    have i1 := (e1 3).mpr (by norm_num)
    have i2 := mt (e1 4).mp (by norm_num)
    omega
  have s1 : {n : ℕ | ∑ j ∈ Finset.range (n + 1), (1 : ℝ) + 3 ≤ 9 / 2} = {0} := by
    ext n
    simp only [Set.mem_ofPred_eq, Set.mem_singleton_iff, Finset.sum_const, Finset.card_range, nsmul_eq_mul, mul_one]
    push_cast
    constructor
    · intro hn
      by_contra h0
      have i2 : (1 : ℝ) ≤ n := by exact_mod_cast Nat.one_le_iff_ne_zero.mpr h0
      linarith
    · rintro rfl
      norm_num
  have n1 : s.numDepartures = 1 := by rw [e2, s1, Set.ncard_singleton]
  have := (ht.reach.inv (.inl rfl)).counts
  exact ⟨s, l, ht, ha, hu, hu', n4, n1, by omega⟩

/-- Exponential times of mean 2 between arrivals, services of 0 or 3 and infinitely many servers: in the long run there are 3/4 agents
in the mean. -/
example : ∃ N : ℝ → (ℕ ⊕ ℕ → ℝ) → ENNReal,
    (∀ ω b s l u, Traj { givenQueue (fun i => |ω (.inl i)|) (fun i => |ω (.inr i)|) with servers := .inf } b AloneOk s l →
      s.active = true → s.currentT ≤ ((u : ℝ) : WithTop ℝ) → (u : WithTop ℝ) < s.time → ∃ k : ℕ, s.numSystem = k ∧ N u ω = k) ∧
    Tendsto (fun u => ∫⁻ ω, N u ω ∂Measure.infinitePi (laws (expMeasure (1 / 2)) coin)) atTop (𝓝 (ENNReal.ofReal (3 / 4))) := by
  have hp : (0 : ℝ) < 1 / 2 := by norm_num
  have := isProbabilityMeasure_expMeasure hp
  obtain ⟨h1, -, h3, -⟩ := C133_met (expMeasure (1 / 2)) coin (exp_int hp) coin_int
  rw [coin_mean] at h3
  obtain ⟨law, -, -⟩ := coin_facts
  obtain ⟨N, -, g1, -, g2⟩ := C151_mean h1 hp law
    (c := fun ω => { givenQueue (fun i => |ω (.inl i)|) (fun i => |ω (.inr i)|) with servers := .inf }) fun ω =>
      ⟨rfl, rfl, rfl, rfl, fun _ _ => rfl, fun _ _ => rfl, fun _ => abs_nonneg _, fun _ => abs_nonneg _⟩
  refine ⟨N, g1, ?_⟩
  rw [h3] at g2
  norm_num at g2 ⊢
  exact g2

end Verif.QueueSpec
