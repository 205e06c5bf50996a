import Verif.Props.QueueManyCount
import Verif.Props.QueueTransform

/-! # C147: how many agents an agent finds at a queue with one server, and how many it leaves behind -/

set_option linter.unusedSectionVars false

namespace Verif.QueueSpec

open Filter Topology MeasureTheory ProbabilityTheory

namespace OneServer

variable {c : QCfg (WithTop ℝ)} {A S : ℕ → ℝ}

theorem sum_mono (h : OneServer c A S) : Monotone fun n => ∑ j ∈ Finset.range n, A j := by
  refine monotone_nat_of_le_succ fun n => ?_
  rw [Finset.sum_range_succ]
  exact le_add_of_nonneg_right (h.arr_nonneg n)

/-- The time of the next arrival, while the queue is active. -/
theorem next_arrival (h : OneServer c A S) {b : Bool} {s : QS (WithTop ℝ)} {l : List (QS (WithTop ℝ))}
    (ht : Traj c b AloneOk s l) (ha : s.active = true) :
    headTime s.arrivals ≤ ((∑ j ∈ Finset.range ((atStage 0 (stamps s l)).length + 1), A j : ℝ) : WithTop ℝ) := by
  obtain ⟨x, r1, -, r2, r3, r4⟩ := (Traj.alone h.endless ht).run ha
  have h1 := (ht.reach.base (.inl h.kind)).okA.le x (by rw [r1]; simp)
  rwa [r2, r3, r4, h.drawn_eq] at h1

/-- Who left, left before the next arrival. -/
theorem before_next (h : OneServer c A S) {b : Bool} {s : QS (WithTop ℝ)} {l : List (QS (WithTop ℝ))}
    (ht : Traj c b AloneOk s l) : ∀ p ∈ atStage 2 (stamps s l),
      p.2 < ((∑ j ∈ Finset.range ((atStage 0 (stamps s l)).length + 1), A j : ℝ) : WithTop ℝ) := by
  have hk : Simple c := .inl h.kind
  induction ht with
  | init => simp [stamps, atStage]
  | step op ht hx hr ih =>
    rename_i s s' l
    have ho := opOut c s s' op hk (ht.reach.base hk) hr
    rcases hx with rfl | rfl | ⟨x, rfl⟩
    · cases ho with
      | ev _ r _ h1 =>
        cases h1 with
        | idle _ _ h2 => subst h2; simpa [stamps] using ih
        | dep a hlt h2 _ =>
          obtain ⟨deps, g1, -, g⟩ := h2.served
          have ha : s.active = true := by
            cases ha : s.active with
            | true => rfl
            | false =>
              rw [((Traj.alone h.endless ht).idle ha).2.2.1] at g1
              simp at g1
          have hnow : s'.currentT < ((∑ j ∈ Finset.range ((atStage 0 (stamps s l)).length + 1), A j : ℝ) : WithTop ℝ) := by
            rw [h2.currentT, h2.time_eq]
            exact hlt.trans_le (h.next_arrival ht ha)
          have e : atStage 0 (stamps s' (s :: l)) = atStage 0 (stamps s l) ∧
              atStage 2 (stamps s' (s :: l)) = atStage 2 (stamps s l) ++ [(a.id, s'.currentT)] := by
            rcases g with ⟨b, rest, -, -, -, -, -, e, -⟩ | ⟨-, -, -, -, e, -⟩ <;> simp [stamps, e, atStage]
          rw [e.1, e.2]
          intro p hp
          rcases List.mem_append.mp hp with hp | hp
          · exact ih p hp
          · rw [List.mem_singleton.mp hp]; exact hnow
        | arr a rest _ _ _ h2 _ =>
          have e : (atStage 0 (stamps s' (s :: l))).length = (atStage 0 (stamps s l)).length + 1 ∧
              atStage 2 (stamps s' (s :: l)) = atStage 2 (stamps s l) := by
            rcases h2.served with ⟨-, -, -, -, e, -⟩ | ⟨-, -, -, -, e, -⟩ <;> simp [stamps, e, atStage]
          rw [e.1, e.2]
          exact fun p hp => (ih p hp).trans_le (WithTop.coe_le_coe.mpr (h.sum_mono (by omega)))
        | block a rest _ _ q _ h2 _ => rw [h.kind] at q; cases q
    · cases ho with
      | already => simpa [stamps] using ih
      | act => simpa [stamps] using ih
    · cases ho with
      | collect => simpa [stamps] using ih

/-- The numbers of agents. -/
theorem numbers (h : OneServer c A S) {b : Bool} {s : QS (WithTop ℝ)} {l : List (QS (WithTop ℝ))}
    (ht : Traj c b AloneOk s l) :
    s.numArrivals = (atStage 0 (stamps s l)).length ∧ s.numDepartures = (atStage 2 (stamps s l)).length ∧
    s.numSystem = s.numArrivals - s.numDepartures := by
  have hk : Simple c := .inl h.kind
  have hT : Traj c b FcfsOk s l := Traj.mono (fun _ _ => AloneOk.fcfs) ht
  have hin := hT.fcfsInv hk h.forward rfl
  obtain ⟨d1, d2⟩ := Traj.alone_numbers hk ht
  rw [← NetSpec.stage_length hk hT] at d1 d2
  refine ⟨d2, d1, ?_⟩
  have h1 := (ht.reach.inv hk).numSystem
  have h2 := hin.out.length_eq
  have h3 := congrArg List.length hin.fifo
  have h4 := hin.fcfs.1
  simp only [List.length_append, List.length_map, ends, List.length_mapIdx, List.length_take, List.length_zip] at h2 h3 h4
  rw [d1, d2]
  omega

/-- When the agent after next `k` comes, from the arrival of agent `n` on. -/
theorem later (n k : ℕ) : ∑ j ∈ Finset.range (n + k + 1), A j =
    ∑ j ∈ Finset.range (n + 1), A j + ∑ j ∈ Finset.range k, A (n + 1 + j) := by
  rw [show n + k + 1 = (n + 1) + k by omega, Finset.sum_range_add]

end OneServer

/-- C147: a queue with one server, run by itself, at the end of the call at which the `n`-th agent leaves: there are `k` or
more agents if and only if the `k`-th agent after it came no later than the service of the `n`-th ended. -/
theorem C147_left {c : QCfg (WithTop ℝ)} {A S : ℕ → ℝ} (h : OneServer c A S) {b : Bool} {s s1 : QS (WithTop ℝ)}
    {l : List (QS (WithTop ℝ))} (ht : Traj c b AloneOk s (s1 :: l)) {n : ℕ} (h1 : s1.numDepartures = n)
    (h2 : s.numDepartures = n + 1) (k : ℕ) :
    (k : ℤ) ≤ s.numSystem ↔ ∑ j ∈ Finset.range k, A (n + 1 + j) ≤ wait A S n + S n := by
  have hk : Simple c := .inl h.kind
  have ht1 : Traj c b AloneOk s1 l := by cases ht; assumption
  obtain ⟨a1, a2, a3⟩ := h.numbers ht
  obtain ⟨-, b2, -⟩ := h.numbers ht1
  have hT : Traj c b FcfsOk s (s1 :: l) := Traj.mono (fun _ _ => AloneOk.fcfs) ht
  have hin := hT.fcfsInv hk h.forward rfl
  have hn : n < (atStage 2 (stamps s (s1 :: l))).length := by omega
  have hget := List.getElem?_eq_getElem hn
  have hleft := h.left ht n _ hget
  have hnow : ((atStage 2 (stamps s (s1 :: l)))[n]).2 = s.currentT := by
    have h3 : (atStage 2 (stamps s (s1 :: l)))[n] ∈
        atStage 2 ((s.log.drop s1.log.length).map fun p => (p.1, p.2, s.currentT)) := by
      refine List.mem_of_getElem? (i := 0) ?_
      rw [← hget]
      simp only [stamps, atStage_append]
      rw [List.getElem?_append_right (by omega)]
      congr 1
      omega
    simp only [atStage, List.filterMap_map, List.mem_filterMap, Function.comp_apply] at h3
    obtain ⟨q, -, hq⟩ := h3
    split at hq
    · exact (congrArg Prod.snd (Option.some.inj hq)).symm
    · cases hq
  have hD := hnow.symm
  rw [hleft] at hD
  have hbefore := h.before_next ht _ (List.getElem_mem hn)
  rw [hleft] at hbefore
  have hb := WithTop.coe_lt_coe.mp hbefore
  rcases Nat.eq_zero_or_pos k with rfl | hk0
  · have w0 : 0 ≤ wait A S n := wait_nonneg _ _ _
    have s0 := h.svc_nonneg n
    simp only [Finset.range_zero, Finset.sum_empty]
    have hs := (hin.fcfs.1)
    have h5 := hin.out.length_eq
    simp only [List.length_append, List.length_map, ends, List.length_mapIdx, List.length_zip] at h5 hs
    constructor
    · intro _; linarith
    · intro _; omega
  · have hl := OneServer.later (A := A) n k
    constructor
    · intro hle
      have hlt : n + k < (atStage 0 (stamps s (s1 :: l))).length := by omega
      have h3 := hin.early _ (List.getElem_mem hlt)
      rw [(h.times ht (n + k)).1 _ (List.getElem?_eq_getElem hlt), hD] at h3
      have h4 : ∑ j ∈ Finset.range (n + k + 1), A j ≤ ∑ j ∈ Finset.range (n + 1), A j + wait A S n + S n :=
        WithTop.coe_le_coe.mp h3
      linarith
    · intro hle
      by_contra hcon
      have hm := h.sum_mono (show (atStage 0 (stamps s (s1 :: l))).length + 1 ≤ n + k + 1 by omega)
      simp only at hm hb
      linarith

/-- C147: the same queue, before the call at which the agent with number `n + k` comes: there are `k` or more agents if and only
if it comes no later than the service of the `n`-th agent ends. -/
theorem C147_found {c : QCfg (WithTop ℝ)} {A S : ℕ → ℝ} (h : OneServer c A S) {b : Bool} {s s1 : QS (WithTop ℝ)}
    {l : List (QS (WithTop ℝ))} (ht : Traj c b AloneOk s (s1 :: l)) {n k : ℕ} (h1 : s1.numArrivals = n + k)
    (h2 : s.numArrivals = n + k + 1) :
    (k : ℤ) ≤ s1.numSystem ↔ ∑ j ∈ Finset.range k, A (n + 1 + j) ≤ wait A S n + S n := by
  have hk : Simple c := .inl h.kind
  cases ht with
  | step op ht1 hx hr =>
  obtain ⟨a1, a2, a3⟩ := h.numbers ht1
  have hT : Traj c b FcfsOk s1 l := Traj.mono (fun _ _ => AloneOk.fcfs) ht1
  have hin := hT.fcfsInv hk h.forward rfl
  have hb := ht1.reach.base hk
  have ho := opOut c s1 s op hk hb hr
  -- the call is an arrival
  have harr : headTime s1.arrivals ≤ headTime s1.departures ∧ s1.active = true ∧
      ∃ a ∈ agents s1.arrivals, a.time = headTime s1.arrivals := by
    rcases hx with rfl | rfl | ⟨x, rfl⟩
    · cases ho with
      | ev _ r _ g =>
        cases g with
        | idle _ _ e => rw [e] at h2; omega
        | dep a _ e _ => rw [e.numArrivals] at h2; omega
        | arr a rest hle _ _ e _ =>
          refine ⟨hle, ?_, a, e.perm.mem_iff.mpr (by simp), e.time_eq⟩
          cases ha : s1.active with
          | true => rfl
          | false =>
            have := e.perm
            rw [((Traj.alone h.endless ht1).idle ha).2.1] at this
            simp at this
        | block a rest _ _ q _ e _ => rw [h.kind] at q; cases q
    · cases ho with
      | already => omega
      | act => simp at h2; omega
    · cases ho with
      | collect => simp at h2; omega
  have hl := OneServer.later (A := A) n k
  have w0 : 0 ≤ wait A S n := wait_nonneg _ _ _
  have s0 := h.svc_nonneg n
  have h5 := hin.out.length_eq
  have h6 := hin.fcfs.1
  have h7 := congrArg List.length hin.fifo
  simp only [List.length_append, List.length_map, ends, List.length_mapIdx, List.length_zip, List.length_take] at h5 h6 h7
  rcases Nat.eq_zero_or_pos k with rfl | hk0
  · simp only [Finset.range_zero, Finset.sum_empty]
    exact ⟨fun _ => by linarith, fun _ => by omega⟩
  constructor
  · intro hle
    -- some agent up to the `n`-th is in service and stays until this arrival
    have hne : (agents s1.departures) ≠ [] := by
      intro h0
      rw [h0] at h5
      simp only [List.length_nil] at h5
      have hq : s1.queue ≠ [] := by
        intro hq
        rw [hq] at h7
        simp only [List.length_nil] at h7
        omega
      have hw := (ht1.reach.inv hk).work hq
      rw [hin.srv, h.servers, h0] at hw
      simp [Cap.lt] at hw
    obtain ⟨x, rest, hxr⟩ := List.exists_cons_of_ne_nil hne
    have hxm : x ∈ agents s1.departures := by rw [hxr]; simp
    have hmem : (x.id, x.time) ∈ ((atStage 1 (stamps s1 l)).map Prod.fst).zip
        (ends c.serviceF ((atStage 1 (stamps s1 l)).map Prod.snd)) :=
      hin.out.subset (List.mem_append_left _ (List.mem_map.mpr ⟨x, hxm, rfl⟩))
    obtain ⟨i, hi⟩ := List.mem_iff_getElem?.mp hmem
    rw [List.getElem?_zip_eq_some] at hi
    obtain ⟨i1, i2⟩ := hi
    rw [List.getElem?_map, Option.map_eq_some_iff] at i1
    obtain ⟨r, hr1, -⟩ := i1
    have hr' := (h.times ht1 i).2 r hr1
    simp only [ends, List.getElem?_mapIdx, List.getElem?_map, hr1, Option.map_some, Option.some.injEq, hr', h.svc] at i2
    have hone := (h.order ht1).2
    have hone' : (agents s1.departures).length ≤ 1 := hone
    have hilt : i < (atStage 1 (stamps s1 l)).length := (List.getElem?_eq_some_iff.mp hr1).1
    have hin' : i ≤ n := by omega
    have hx1 : headTime s1.arrivals ≤ x.time := harr.1.trans (hb.okD.le x hxm)
    -- the next arrival is the agent itself
    have hx2 : ((∑ j ∈ Finset.range (n + k + 1), A j : ℝ) : WithTop ℝ) ≤ headTime s1.arrivals := by
      obtain ⟨y, r1, -, r2, r3, r4⟩ := (Traj.alone h.endless ht1).run harr.2.1
      have e : headTime s1.arrivals = y.time := by
        obtain ⟨-, -, a, ha, he⟩ := harr
        rw [r1, List.mem_singleton] at ha
        rw [← he, ha]
      rw [e, r2, r3, r4, h.drawn_eq, ← a1, h1]
    have hx3 := hx2.trans hx1
    rw [← i2] at hx3
    have hx4 : ∑ j ∈ Finset.range (n + k + 1), A j ≤ ∑ j ∈ Finset.range (i + 1), A j + wait A S i + S i := by
      exact_mod_cast hx3
    have hx5 : ∑ j ∈ Finset.range (i + 1), A j + wait A S i + S i ≤ ∑ j ∈ Finset.range (n + 1), A j + wait A S n + S n := by
      rcases hin'.eq_or_lt with rfl | hlt
      · exact le_rfl
      · have := h.start_mono hlt
        linarith
    linarith
  · intro hle
    by_contra hcon
    have hn : n < (atStage 2 (stamps s1 l)).length := by omega
    have h3 := h.before_next ht1 _ (List.getElem_mem hn)
    rw [h.left ht1 n _ (List.getElem?_eq_getElem hn), ← a1, h1] at h3
    have h4 := WithTop.coe_lt_coe.mp h3
    linarith

/-- The law of the sum of `k` independent numbers of law `α`. -/
noncomputable def power (α : Measure ℝ) : ℕ → Measure ℝ
  | 0 => .dirac 0
  | k + 1 => power α k ∗ α

theorem power_prob (α : Measure ℝ) [IsProbabilityMeasure α] (k : ℕ) : IsProbabilityMeasure (power α k) := by
  induction k with
  | zero => exact inferInstanceAs (IsProbabilityMeasure (Measure.dirac (0 : ℝ)))
  | succ k ih => exact inferInstanceAs (IsProbabilityMeasure (power α k ∗ α))

theorem power_nonneg {α : Measure ℝ} [IsProbabilityMeasure α] (h : ∀ᵐ x ∂α, 0 ≤ x) (k : ℕ) : ∀ᵐ x ∂power α k, 0 ≤ x := by
  induction k with
  | zero => rw [power, ae_dirac_iff measurableSet_Ici]
  | succ k ih =>
    have := power_prob α k
    rw [ae_iff] at ih h ⊢
    have hm : MeasurableSet {x : ℝ | ¬ 0 ≤ x} := measurableSet_Ici.compl
    rw [power, ← lintegral_indicator_one hm, Measure.lintegral_conv (measurable_one.indicator hm)]
    refine (lintegral_eq_zero_iff (by fun_prop)).mpr ?_
    filter_upwards [ae_iff.mpr ih] with x hx
    refine (lintegral_eq_zero_iff (by fun_prop)).mpr ?_
    filter_upwards [ae_iff.mpr h] with y hy
    simp [add_nonneg hx hy]

/-- The transform of an exponential time. -/
theorem exp_transform {lam th : ℝ} (h0 : 0 < lam) (ht : 0 ≤ th) :
    ∫⁻ x, ENNReal.ofReal (Real.exp (-(th * x))) ∂expMeasure lam = ENNReal.ofReal (lam / (lam + th)) := by
  rw [exp_lintegral lam (by fun_prop)]
  have e : ∀ x : ℝ, ENNReal.ofReal (lam * Real.exp (-(lam * x))) * ENNReal.ofReal (Real.exp (-(th * x))) =
      ENNReal.ofReal (-(-(lam / (lam + th)) * (lam + th) * Real.exp (-((lam + th) * x)))) := by
    intro x
    have hne : lam + th ≠ 0 := by linarith
    rw [← ENNReal.ofReal_mul (by positivity), mul_assoc, ← Real.exp_add]
    congr 1
    rw [show -(lam * x) + -(th * x) = -((lam + th) * x) by ring]
    field_simp
  simp_rw [e]
  rw [lintegral_tail (exp_deriv (-(lam / (lam + th))) (lam + th)) (fun x _ => ?_) (exp_tail (by linarith) _)]
  · simp
  · have : 0 ≤ lam / (lam + th) * (lam + th) * Real.exp (-((lam + th) * x)) := by positivity
    linarith

theorem power_transform {lam th : ℝ} (h0 : 0 < lam) (ht : 0 ≤ th) (k : ℕ) :
    ∫⁻ x, ENNReal.ofReal (Real.exp (-(th * x))) ∂power (expMeasure lam) k = ENNReal.ofReal ((lam / (lam + th)) ^ k) := by
  have := isProbabilityMeasure_expMeasure h0
  induction k with
  | zero => simp [power]
  | succ k ih =>
    have := power_prob (expMeasure lam) k
    have hm : Measurable fun x : ℝ => ENNReal.ofReal (Real.exp (-(th * x))) := by fun_prop
    rw [power, Measure.lintegral_conv hm]
    have e : ∀ x y : ℝ, ENNReal.ofReal (Real.exp (-(th * (x + y)))) =
        ENNReal.ofReal (Real.exp (-(th * x))) * ENNReal.ofReal (Real.exp (-(th * y))) := by
      intro x y
      rw [← ENNReal.ofReal_mul (by positivity), ← Real.exp_add]
      congr 2
      ring
    simp_rw [e, lintegral_const_mul _ hm, exp_transform h0 ht]
    rw [lintegral_mul_const _ hm, ih, ← ENNReal.ofReal_mul (by positivity), pow_succ]

section
variable {Ω : Type*} [MeasurableSpace Ω] {P : Measure Ω} [IsProbabilityMeasure P] {A S : ℕ → Ω → ℝ}

/-- The law of the time from one arrival to the `k`-th after it. -/
theorem RenewalInput.sum_power (h : RenewalInput P A S) (n k : ℕ) :
    P.map (fun ω => ∑ j ∈ Finset.range k, A (n + j) ω) = power (P.map (A 0)) k := by
  induction k with
  | zero => simp [power, Measure.map_const]
  | succ k ih =>
    have hi : iIndepFun (fun j => A (n + j)) P :=
      h.indep.precomp (g := fun j => .inl (n + j)) (fun i j hij => by simpa using hij)
    have h1 := hi.indepFun_sum_range_succ (fun j => h.meas (.inl (n + j))) k
    have hm : Measurable (∑ j ∈ Finset.range k, A (n + j)) := by
      rw [show (∑ j ∈ Finset.range k, A (n + j)) = fun ω => ∑ j ∈ Finset.range k, A (n + j) ω by funext ω; simp]
      exact Finset.measurable_sum _ fun j _ => h.meas (.inl (n + j))
    have h2 := h1.map_add_eq_map_conv_map hm (show Measurable (A (n + k)) from h.meas (.inl (n + k)))
    have e : (fun ω => ∑ j ∈ Finset.range (k + 1), A (n + j) ω) = (∑ j ∈ Finset.range k, A (n + j)) + A (n + k) := by
      funext ω
      simp [Finset.sum_range_succ]
    have e1 : (∑ j ∈ Finset.range k, A (n + j)) = fun ω => ∑ j ∈ Finset.range k, A (n + j) ω := by
      funext ω
      simp
    rw [e, h2, e1, ih, power, (h.arr (n + k)).map_eq]

/-- How long an agent stays does not depend on the times between later arrivals. -/
theorem RenewalInput.stay_later (h : RenewalInput P A S) (n k : ℕ) :
    (fun ω => wait (A · ω) (S · ω) n + S n ω) ⟂ᵢ[P] fun ω => ∑ j ∈ Finset.range k, A (n + 1 + j) ω := by
  have h0 := indep_iSup_of_disjoint (fun x => (h.meas x).comap_le) h.indep.iIndep
    (disjoint_compl_left (a := {x : ℕ ⊕ ℕ | ∃ j, x = .inl (n + 1 + j)}))
  have hone : ∀ T : Set (ℕ ⊕ ℕ), ∀ x ∈ T,
      Measurable[⨆ x ∈ T, (inferInstance : MeasurableSpace ℝ).comap (Sum.elim A S x)] (Sum.elim A S x) := by
    intro T x hx
    exact measurable_iff_comap_le.mpr (le_iSup₂_of_le x hx le_rfl)
  have h1 := hone ({x : ℕ ⊕ ℕ | ∃ j, x = .inl (n + 1 + j)}ᶜ) (.inr n) (by simp)
  have h2 : Measurable[⨆ x ∈ {x : ℕ ⊕ ℕ | ∃ j, x = .inl (n + 1 + j)}, (inferInstance : MeasurableSpace ℝ).comap (Sum.elim A S x)]
      fun ω => ∑ j ∈ Finset.range k, A (n + 1 + j) ω :=
    Finset.measurable_sum _ fun j _ => hone _ (.inl (n + 1 + j)) ⟨j, rfl⟩
  have h3 : Measurable[⨆ x ∈ {x : ℕ ⊕ ℕ | ∃ j, x = .inl (n + 1 + j)}ᶜ, (inferInstance : MeasurableSpace ℝ).comap (Sum.elim A S x)]
      fun ω => wait (A · ω) (S · ω) n := by
    have := waitFrom_past (A := A) (S := S) 0 n
    simp only [waitFrom_zero] at this
    refine this.mono (biSup_mono fun x hx => ?_) le_rfl
    rintro ⟨j, rfl⟩
    have : n + 1 + j ≤ n := hx
    omega
  refine (IndepFun_iff_Indep _ _ _).mpr ?_
  refine indep_of_indep_of_le_left (indep_of_indep_of_le_right h0 ?_) ?_
  · exact measurable_iff_comap_le.mp h2
  · exact measurable_iff_comap_le.mp (h3.add h1)

/-- How long an agent stays in the long run (C140). -/
theorem RenewalInput.stay_longer {lam mu : ℝ} (h0 : 0 < lam) (hlt : lam < mu) (h : RenewalInput P A S)
    (hA : P.map (A 0) = expMeasure lam) (hS : P.map (S 0) = expMeasure mu) {x : ℝ} (hx : 0 ≤ x) :
    Tendsto (fun n => P.real {ω | x < wait (A · ω) (S · ω) n + S n ω}) atTop (𝓝 (Real.exp (-((mu - lam) * x)))) := by
  have hmu := h0.trans hlt
  have mA : ∫ ω, A 0 ω ∂P = 1 / lam := by
    rw [← exp_mean h0, ← hA, integral_map (φ := A 0) (f := fun x => x) (h.meas (.inl 0)).aemeasurable aestronglyMeasurable_id]
  have mS : ∫ ω, S 0 ω ∂P = 1 / mu := by
    rw [← exp_mean hmu, ← hS, integral_map (φ := S 0) (f := fun x => x) (h.meas (.inr 0)).aemeasurable aestronglyMeasurable_id]
  have hmean : ∫ ω, S 0 ω ∂P < ∫ ω, A 0 ω ∂P := by
    rw [mA, mS]
    exact one_div_lt_one_div_of_lt h0 hlt
  have := mmLaw_prob h0 hlt
  have hset : Settled (P.map (A 0)) (P.map (S 0)) (mmLaw lam mu) := by
    rw [hA, hS]
    exact mm_settled h0 hlt
  have hW : ∀ x, Tendsto (fun n => P {ω | wait (A · ω) (S · ω) n ≤ x}) atTop (𝓝 (mmLaw lam mu (Set.Iic x))) := by
    intro x
    rw [h.settled_unique hmean hset]
    exact (h.wait_limit_law x).2
  have hexp : Real.exp (-((mu - lam) * x)) ≤ 1 := Real.exp_le_one_iff.mpr (by nlinarith)
  have ht : Tendsto (fun n => P {ω | wait (A · ω) (S · ω) n + S n ω ≤ x}) atTop
      (𝓝 (ENNReal.ofReal (1 - Real.exp (-((mu - lam) * x))))) := by
    rw [← mm_stay h0 hlt hx, ← hS]
    simp_rw [h.stay_law]
    have : IsProbabilityMeasure (P.map (S 0)) := Measure.isProbabilityMeasure_map (h.meas (.inr 0)).aemeasurable
    refine tendsto_lintegral_of_dominated_convergence (fun _ => 1) (fun n => ?_) (fun n => ?_) (by simp) ?_
    · have := (h.law_meas n x).comp (measurable_prodMk_left (x := (0 : ℝ)))
      simpa [Function.comp_def, waitFrom_zero] using this
    · exact Eventually.of_forall fun v => prob_le_one
    · exact Eventually.of_forall fun y => hW _
  have h1 := (ENNReal.tendsto_toReal ENNReal.ofReal_ne_top).comp ht
  rw [ENNReal.toReal_ofReal (by linarith)] at h1
  have h2 := h1.const_sub 1
  rw [sub_sub_cancel] at h2
  refine h2.congr fun n => ?_
  have e : {ω | x < wait (A · ω) (S · ω) n + S n ω} = {ω | wait (A · ω) (S · ω) n + S n ω ≤ x}ᶜ := by ext ω; simp
  have hm : Measurable fun ω => wait (A · ω) (S · ω) n + S n ω := (h.wait_meas n).add (h.meas (.inr n))
  rw [e, probReal_compl_eq_one_sub (measurableSet_le hm measurable_const)]
  rfl

/-- C147: let times between arrivals be exponential of rate `lam` and services of rate `mu > lam`. The chance that the `n`-th
agent leaves `k` or more agents behind when it leaves tends to `(lam / mu) ^ k`, and so does the chance that it finds `k` or
more agents when it comes. -/
theorem C147_geometric {lam mu : ℝ} (h0 : 0 < lam) (hlt : lam < mu) (h : RenewalInput P A S)
    (hA : P.map (A 0) = expMeasure lam) (hS : P.map (S 0) = expMeasure mu) {c : Ω → QCfg (WithTop ℝ)}
    (hc : ∀ ω, OneServer (c ω) (A · ω) (S · ω)) :
    ∃ E F : ℕ → ℕ → Set Ω, (∀ n k, MeasurableSet (E n k)) ∧ (∀ n k, MeasurableSet (F n k)) ∧
      (∀ ω b s s1 l n, Traj (c ω) b AloneOk s (s1 :: l) → s1.numDepartures = n → s.numDepartures = n + 1 →
        ∀ k : ℕ, (k : ℤ) ≤ s.numSystem ↔ ω ∈ E n k) ∧
      (∀ ω b s s1 l n, Traj (c ω) b AloneOk s (s1 :: l) → s1.numArrivals = n → s.numArrivals = n + 1 →
        ∀ k : ℕ, (k : ℤ) ≤ s1.numSystem ↔ ω ∈ F n k) ∧
      (∀ k, Tendsto (fun n => P.real (E n k)) atTop (𝓝 ((lam / mu) ^ k))) ∧
      ∀ k, Tendsto (fun n => P.real (F n k)) atTop (𝓝 ((lam / mu) ^ k)) := by
  have hmu := h0.trans hlt
  set stay : ℕ → Ω → ℝ := fun n ω => wait (A · ω) (S · ω) n + S n ω with hstay
  have mstay : ∀ n, Measurable (stay n) := fun n => (h.wait_meas n).add (h.meas (.inr n))
  have mY : ∀ n k, Measurable fun ω => ∑ j ∈ Finset.range k, A (n + 1 + j) ω := fun n k =>
    Finset.measurable_sum _ fun j _ => h.meas (.inl (n + 1 + j))
  set E : ℕ → ℕ → Set Ω := fun n k => {ω | ∑ j ∈ Finset.range k, A (n + 1 + j) ω ≤ stay n ω} with hE
  have mE : ∀ n k, MeasurableSet (E n k) := fun n k => measurableSet_le (mY n k) (mstay n)
  -- the chance to stay for `x` or longer
  have tail : ∀ x, 0 ≤ x → Tendsto (fun n => P {ω | x ≤ stay n ω}) atTop
      (𝓝 (ENNReal.ofReal (Real.exp (-((mu - lam) * x))))) := by
    intro x hx
    have hr : Tendsto (fun n => P.real {ω | x ≤ stay n ω}) atTop (𝓝 (Real.exp (-((mu - lam) * x)))) := by
      refine tendsto_order.mpr ⟨fun a ha => ?_, fun a ha => ?_⟩
      · filter_upwards [(tendsto_order.mp (h.stay_longer h0 hlt hA hS hx)).1 a ha] with n hn
        exact hn.trans_le (measureReal_mono fun ω (hω : x < stay n ω) => show x ≤ stay n ω from hω.le)
      · rcases hx.eq_or_lt with rfl | hx0
        · refine Eventually.of_forall fun n => ?_
          simp only [mul_zero, neg_zero, Real.exp_zero] at ha
          exact measureReal_le_one.trans_lt ha
        · have hcont : ContinuousAt (fun z : ℝ => Real.exp (-((mu - lam) * z))) x := by fun_prop
          have hev := hcont.eventually (gt_mem_nhds ha)
          obtain ⟨z, hz1, hz2, hz3⟩ : ∃ z, 0 ≤ z ∧ z < x ∧ Real.exp (-((mu - lam) * z)) < a := by
            obtain ⟨d, hd, hball⟩ := Metric.eventually_nhds_iff.mp hev
            refine ⟨max 0 (x - d / 2), le_max_left _ _, max_lt hx0 (by linarith), hball ?_⟩
            rw [Real.dist_eq, abs_lt]
            constructor
            · have := le_max_right 0 (x - d / 2)
              linarith
            · have := max_lt hx0 (show x - d / 2 < x by linarith)
              linarith
          filter_upwards [(tendsto_order.mp (h.stay_longer h0 hlt hA hS hz1)).2 a hz3] with n hn
          exact lt_of_le_of_lt (measureReal_mono fun ω (hω : x ≤ stay n ω) => show z < stay n ω from hz2.trans_le hω) hn
    have := ENNReal.tendsto_ofReal hr
    refine this.congr fun n => ?_
    rw [Measure.real, ENNReal.ofReal_toReal (measure_ne_top _ _)]
  have limE : ∀ k, Tendsto (fun n => P (E n k)) atTop (𝓝 (ENNReal.ofReal ((lam / mu) ^ k))) := by
    intro k
    have := isProbabilityMeasure_expMeasure h0
    have := power_prob (expMeasure lam) k
    have e : ∀ n, P (E n k) = ∫⁻ y, P {ω | y ≤ stay n ω} ∂power (expMeasure lam) k := by
      intro n
      have hi := (h.stay_later n k).comp (φ := fun x : ℝ => -x) (ψ := fun x : ℝ => x) measurable_neg measurable_id
      have h1 := sum_law (X := fun ω => -stay n ω) (Y := fun ω => ∑ j ∈ Finset.range k, A (n + 1 + j) ω) (mstay n).neg (mY n k) hi 0
      rw [h.sum_power, hA] at h1
      simp only [zero_sub, neg_le_neg_iff] at h1
      rw [← h1]
      congr 1
      ext ω
      simp only [hE, Set.mem_ofPred_eq]
      constructor <;> intro <;> linarith
    simp_rw [e]
    have e2 : lam / mu = lam / (lam + (mu - lam)) := by congr 1; ring
    rw [e2, ← power_transform h0 (sub_nonneg.mpr hlt.le) k]
    refine tendsto_lintegral_of_dominated_convergence (fun _ => 1) (fun n => ?_) (fun n => ?_) (by simp) ?_
    · have hm : MeasurableSet {p : ℝ × Ω | p.1 ≤ stay n p.2} := measurableSet_le measurable_fst ((mstay n).comp measurable_snd)
      exact measurable_measure_prodMk_left hm
    · exact Eventually.of_forall fun v => prob_le_one
    · filter_upwards [power_nonneg (exp_nonneg h0) k] with y hy
      exact tail y hy
  have limR : ∀ k, Tendsto (fun n => P.real (E n k)) atTop (𝓝 ((lam / mu) ^ k)) := by
    intro k
    have h1 := (ENNReal.tendsto_toReal ENNReal.ofReal_ne_top).comp (limE k)
    rw [ENNReal.toReal_ofReal (by positivity)] at h1
    exact h1
  refine ⟨E, fun n k => if k ≤ n then E (n - k) k else ∅, mE, fun n k => ?_, fun ω b s s1 l n ht h1 h2 k =>
    C147_left (hc ω) ht h1 h2 k, fun ω b s s1 l n ht h1 h2 k => ?_, limR, fun k => ?_⟩
  · dsimp only
    split
    · exact mE _ _
    · exact MeasurableSet.empty
  · dsimp only
    split
    · rename_i hkn
      exact C147_found (hc ω) ht (by omega) (by omega)
    · rename_i hkn
      have ht1 : Traj (c ω) b AloneOk s1 l := by cases ht; assumption
      obtain ⟨-, -, e⟩ := (hc ω).numbers ht1
      simp only [Set.mem_empty_iff_false, iff_false]
      omega
  · refine (tendsto_add_atTop_iff_nat k).mp ?_
    refine (limR k).congr fun n => ?_
    dsimp only
    rw [if_pos (by omega), Nat.add_sub_cancel]

end

/-- Every agent that has left did so at one call, and every agent that has come did so at one call. -/
theorem Traj.moments {c : QCfg (WithTop ℝ)} {A S : ℕ → ℝ} (h : OneServer c A S) {b : Bool} {s : QS (WithTop ℝ)}
    {l : List (QS (WithTop ℝ))} (ht : Traj c b AloneOk s l) (n : ℕ) :
    (n < s.numDepartures → ∃ s2 s1 l1, Traj c b AloneOk s2 (s1 :: l1) ∧ s1.numDepartures = n ∧ s2.numDepartures = n + 1) ∧
    (n < s.numArrivals → ∃ s2 s1 l1, Traj c b AloneOk s2 (s1 :: l1) ∧ s1.numArrivals = n ∧ s2.numArrivals = n + 1) := by
  have hk : Simple c := .inl h.kind
  induction ht with
  | init => simp [QS.init]
  | step op ht hx hr ih =>
    rename_i s s' l
    have ho := opOut c s s' op hk (ht.reach.base hk) hr
    have step : s'.numDepartures ≤ s.numDepartures + 1 ∧ s'.numArrivals ≤ s.numArrivals + 1 := by
      rcases hx with rfl | rfl | ⟨x, rfl⟩
      · cases ho with
        | ev _ r _ h1 =>
          cases h1 with
          | idle _ _ h2 => rw [h2]; omega
          | dep a _ h2 _ => rw [h2.numDepartures, h2.numArrivals]; omega
          | arr a rest _ _ _ h2 _ => rw [h2.numDepartures, h2.numArrivals]; omega
          | block a rest _ _ _ _ h2 _ => rw [h2.numDepartures, h2.numArrivals]; omega
      · cases ho with
        | already => omega
        | act => simp
      · cases ho with
        | collect => simp
    refine ⟨fun hn => ?_, fun hn => ?_⟩
    · rcases Nat.lt_or_ge n s.numDepartures with hlt | hge
      · exact ih.1 hlt
      · exact ⟨s', s, l, .step op ht hx hr, by omega, by omega⟩
    · rcases Nat.lt_or_ge n s.numArrivals with hlt | hge
      · exact ih.2 hlt
      · exact ⟨s', s, l, .step op ht hx hr, by omega, by omega⟩

/-- Arrivals at 1, 2, 3, ..., services that take 3: there is a history at the end of which the second agent leaves; it leaves five
agents behind. -/
example : ∃ s s1 l, Traj (givenQueue (fun _ => 1) fun _ => 3) true AloneOk s (s1 :: l) ∧ s1.numDepartures = 1 ∧
    s.numDepartures = 2 ∧ s.numSystem = 5 := by
  have h : OneServer (givenQueue (fun _ => 1) fun _ => 3) (fun _ => 1) fun _ => 3 :=
    givenQueue_one (fun _ => by norm_num) fun _ => by norm_num
  obtain ⟨s, h1, h2⟩ := h.endless.start true
  obtain ⟨s', l', h3, -, h4⟩ := h.leaves (fun x => by simpa using exists_nat_gt x) h1 h2 1
  rw [← (h.numbers h3).2.1] at h4
  obtain ⟨t, t1, m, k1, k2, k3⟩ := (Traj.moments h h3 1).1 h4
  have hw : wait (fun _ => 1) (fun _ => 3) 1 = 2 := by norm_num [wait]
  refine ⟨t, t1, m, k1, k2, k3, ?_⟩
  have i1 := (C147_left h k1 k2 k3 5).mpr (by rw [hw]; norm_num)
  have i2 := mt (C147_left h k1 k2 k3 6).mp (by rw [hw]; norm_num)
  push_cast at i1 i2
  omega

/-- In the same queue the fourth agent comes when the service of the first ends, and finds three agents. -/
example : ∃ s s1 l, Traj (givenQueue (fun _ => 1) fun _ => 3) true AloneOk s (s1 :: l) ∧ s1.numArrivals = 3 ∧
    s.numArrivals = 4 ∧ s1.numSystem = 3 := by
  have h : OneServer (givenQueue (fun _ => 1) fun _ => 3) (fun _ => 1) fun _ => 3 :=
    givenQueue_one (fun _ => by norm_num) fun _ => by norm_num
  obtain ⟨s, h1, h2⟩ := h.endless.start true
  obtain ⟨s', l', h3, -, h4⟩ := h.leaves (fun x => by simpa using exists_nat_gt x) h1 h2 3
  have h5 := h.numbers h3
  have h6 := (h3.reach.inv (.inl rfl)).numSystem
  obtain ⟨t, t1, m, k1, k2, k3⟩ := (Traj.moments h h3 3).2 (by omega)
  have k0 : Traj (givenQueue (fun _ => 1) fun _ => 3) true AloneOk t1 m := by cases k1; assumption
  refine ⟨t, t1, m, k1, k2, k3, ?_⟩
  have i1 := (C147_found h k1 (n := 0) (k := 3) k2 k3).mpr (by norm_num [wait])
  have i2 := (h.numbers k0).2.2
  push_cast at i1
  omega

/-- The functions a QueueServer has if none are given (rates 1 and 10/9): the number of agents found and left behind is `k` or more
with a probability that tends to `0.9 ^ k`. -/
example : ∃ E F : ℕ → ℕ → Set (ℕ ⊕ ℕ → ℝ),
    (∀ ω b s s1 l n, Traj (givenQueue (fun i => |ω (.inl i)|) fun i => |ω (.inr i)|) b AloneOk s (s1 :: l) →
      s1.numDepartures = n → s.numDepartures = n + 1 → ∀ k : ℕ, (k : ℤ) ≤ s.numSystem ↔ ω ∈ E n k) ∧
    (∀ ω b s s1 l n, Traj (givenQueue (fun i => |ω (.inl i)|) fun i => |ω (.inr i)|) b AloneOk s (s1 :: l) →
      s1.numArrivals = n → s.numArrivals = n + 1 → ∀ k : ℕ, (k : ℤ) ≤ s1.numSystem ↔ ω ∈ F n k) ∧
    (∀ k, Tendsto (fun n => (Measure.infinitePi (laws (expMeasure 1) (expMeasure (10 / 9)))).real (E n k)) atTop (𝓝 ((9 / 10) ^ k))) ∧
    ∀ k, Tendsto (fun n => (Measure.infinitePi (laws (expMeasure 1) (expMeasure (10 / 9)))).real (F n k)) atTop (𝓝 ((9 / 10) ^ k)) := by
  have := isProbabilityMeasure_expMeasure (one_pos (α := ℝ))
  have := isProbabilityMeasure_expMeasure (show (0 : ℝ) < 10 / 9 by norm_num)
  obtain ⟨h1, -, -, h4⟩ := C133_met (expMeasure 1) (expMeasure (10 / 9)) (exp_int one_pos) (exp_int (by norm_num))
  have law : ∀ (r : ℝ) (x : ℕ ⊕ ℕ), 0 < r → laws (expMeasure 1) (expMeasure (10 / 9)) x = expMeasure r →
      (Measure.infinitePi (laws (expMeasure 1) (expMeasure (10 / 9)))).map (fun ω => |ω x|) = expMeasure r := by
    intro r x hr hx
    have e := Measure.infinitePi_map_eval (laws (expMeasure 1) (expMeasure (10 / 9))) x
    have abs1 : Measurable fun x : ℝ => |x| := by fun_prop
    have e2 : (fun ω : ℕ ⊕ ℕ → ℝ => |ω x|) = (fun y : ℝ => |y|) ∘ fun ω => ω x := rfl
    rw [e2, ← Measure.map_map abs1 (measurable_pi_apply x)]
    have e3 : (Measure.infinitePi (laws (expMeasure 1) (expMeasure (10 / 9)))).map (fun ω => ω x) = expMeasure r := by
      rw [← hx]; exact e
    rw [e3, Measure.map_congr (g := id)]
    · exact Measure.map_id
    · filter_upwards [exp_nonneg hr] with y hy
      exact abs_of_nonneg hy
  obtain ⟨E, F, -, -, g1, g2, g3, g4⟩ := C147_geometric (lam := 1) (mu := 10 / 9) one_pos (by norm_num) h1
    (law 1 (.inl 0) one_pos rfl) (law (10 / 9) (.inr 0) (by norm_num) rfl) h4
  rw [show (1 : ℝ) / (10 / 9) = 9 / 10 by norm_num] at g3 g4
  exact ⟨E, F, g1, g2, g3, g4⟩

end Verif.QueueSpec
