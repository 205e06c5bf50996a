import Verif.Props.NetPace
import Verif.Props.Queue2

/-!
# `simulate` of a queue ends (C107)

Queue_servers.py lines 763-777: three `while` loops, that go on while something is scheduled.
-/

set_option linter.unusedSectionVars false
set_option linter.unusedVariables false

namespace Verif.QueueSpec

variable {T : Type*} [LinearOrder T] [OrderTop T] [Zero T]

/-- The number of events still to come for the agents at or on the way to a queue, if nobody is blocked. -/
def due (s : QS T) : Nat := 2 * (agents s.arrivals).length + s.queue.length + (inService s).length

theorem next_due {c : QCfg T} (hk : Simple c) {s s' : QS T} {r : Option (Agent T)} (hb : QBase s) (ht : s.time < ⊤)
    (h : nextEvent c s = .ok (s', r)) :
    s.oArrivals ≤ s'.oArrivals ∧ due s' + 1 ≤ due s + 2 * (s'.oArrivals - s.oArrivals) ∧
      (s'.numBlocked = s.numBlocked → due s' + 1 = due s + 2 * (s'.oArrivals - s.oArrivals)) := by
  obtain ⟨s1, r1, h1, h2⟩ := nextEvent_spec c s hk hb.okA hb.okD
  rw [h1] at h
  simp only [Except.ok.injEq, Prod.mk.injEq] at h
  obtain ⟨rfl, rfl⟩ := h
  unfold due inService
  cases h2 with
  | idle e1 e2 _ => rw [hb.time, nextTime, e1, e2, min_self] at ht; exact absurd ht (lt_irrefl _)
  | dep a _ e _ =>
    obtain ⟨deps, d1, -, d2⟩ := e.served
    have g1 := d1.length_eq
    rw [e.oArrivals, e.arrivals]
    rcases d2 with ⟨b', rest, e1, -, e2, -, e4, -, -⟩ | ⟨-, e1, -, e3, -, -⟩
    · have g2 := e4.length_eq
      rw [e2, e1]
      simp only [List.length_cons] at g1 g2 ⊢
      omega
    · rw [e1, e3]
      simp only [List.length_cons] at g1 ⊢
      omega
  | arr a rest _ _ _ e _ =>
    obtain ⟨ext, -, x2, x3, -⟩ := e.ext
    have g1 := e.perm.length_eq
    have g2 := x2.length_eq
    rw [x3]
    simp only [List.length_cons, List.length_append] at g1 g2
    rcases e.served with ⟨-, e2, -, e3, -, -⟩ | ⟨-, e2, -, e3, -, -⟩
    · have g3 := e3.length_eq
      simp only [List.length_cons] at g3
      rw [e2]
      omega
    · rw [e2, e3]
      simp only [List.length_append, List.length_cons, List.length_nil]
      omega
  | block a rest _ _ _ _ e _ =>
    obtain ⟨ext, -, x2, x3, -⟩ := e.ext
    have g1 := e.perm.length_eq
    have g2 := x2.length_eq
    rw [x3, e.queue, e.departures, e.numBlocked]
    simp only [List.length_cons, List.length_append] at g1 g2
    omega

/-- One turn of a `while` loop. -/
theorem while_turn {c : QCfg T} (hk : Simple c) (cond : QS T → Bool) {s : QS T} (hb : QBase s) :
    (∀ fuel, (cond s = false ∨ s.time = ⊤) → simulateWhile c cond fuel s = some (.ok s)) ∧
    (cond s = true → s.time < ⊤ → ∃ s' r, nextEvent c s = .ok (s', r) ∧
      ∀ fuel, simulateWhile c cond (fuel + 1) s = simulateWhile c cond fuel s') := by
  constructor
  · intro fuel h
    have hn : ¬ (cond s = true ∧ s.time < ⊤) := by
      rintro ⟨h1, h2⟩
      rcases h with h | h
      · rw [h] at h1; simp at h1
      · exact h2.ne h
    cases fuel <;> simp [simulateWhile, hn]
  · intro h1 h2
    obtain ⟨s', r, g1, -⟩ := next_events hk hb
    exact ⟨s', r, g1, fun fuel => by simp only [simulateWhile, h1, h2, and_self, if_true, g1]⟩

/-- C107: `simulate(nA=m)` ends, whatever the functions of the queue, after at most two events for every agent to come,
and one for every agent there. -/
theorem C107_simulate_nA_ends {c : QCfg T} (hk : Simple c) {b : Bool} {s : QS T} (m : Nat) (h : Reach c b anyOp s) :
    ∃ s', simulateA c m (2 * ((agents s.arrivals).length + m) + s.queue.length + (inService s).length) s =
      some (.ok s') := by
  have main : ∀ fuel (s : QS T) (goal : Nat), QBase s → due s + 2 * (goal - s.oArrivals) ≤ fuel →
      ∃ s', simulateWhile c (fun s' => decide (s'.oArrivals < goal)) fuel s = some (.ok s') := by
    intro fuel
    induction fuel with
    | zero =>
      intro s goal hb hf
      refine ⟨s, (while_turn hk _ hb).1 _ (.inl ?_)⟩
      simp only [decide_eq_false_iff_not]
      omega
    | succ fuel ih =>
      intro s goal hb hf
      by_cases hc : s.oArrivals < goal
      swap
      · exact ⟨s, (while_turn hk _ hb).1 _ (.inl (by simpa using hc))⟩
      rcases eq_or_lt_of_le (le_top : s.time ≤ ⊤) with ht | ht
      · exact ⟨s, (while_turn hk _ hb).1 _ (.inr ht)⟩
      obtain ⟨s1, r, g1, g2⟩ := (while_turn hk (fun s' => decide (s'.oArrivals < goal)) hb).2 (by simpa using hc) ht
      obtain ⟨s1', r', k1, k2, -⟩ := next_events hk hb
      rw [g1] at k1
      simp only [Except.ok.injEq, Prod.mk.injEq] at k1
      obtain ⟨rfl, rfl⟩ := k1
      rw [g2]
      obtain ⟨e1, e2, -⟩ := next_due hk hb ht g1
      have e3 := (next_counts hk hb g1).2
      exact ih s1 goal k2 (by omega)
  exact main _ s (s.oArrivals + m) (h.base hk) (by unfold due; omega)

/-- C107: `simulate(t=d)` ends if only so many services and interarrival times in a row fit between now and then. -/
theorem C107_simulate_t_ends [Add T] {c : QCfg T} (hk : Simple c) (hf : Forward c) {b : Bool} {s : QS T} (d : T)
    {φ : T → Nat} (hp : PaceQ c (s.currentT + d) φ) (h : Reach c b ClockOk s) :
    ∃ fuel s', simulateT c d fuel s = some (.ok s') := by
  unfold simulateT
  generalize s.currentT + d = u at hp
  generalize hv : pot u φ s = v
  induction v using Nat.strong_induction_on generalizing s with
  | _ v ih =>
    have hb := h.base hk
    by_cases hc : s.currentT < u
    swap
    · exact ⟨0, s, (while_turn hk _ hb).1 _ (.inl (by simpa using hc))⟩
    rcases eq_or_lt_of_le (le_top : s.time ≤ ⊤) with ht | ht
    · exact ⟨0, s, (while_turn hk _ hb).1 _ (.inr ht)⟩
    obtain ⟨s1, r, g1, g2⟩ := (while_turn hk (fun s' => decide (s'.currentT < u)) hb).2 (by simpa using hc) ht
    have hr1 : Reach c b ClockOk s1 := h.step .next trivial (by simp [QOp.run, g1])
    have hb1 := hr1.base hk
    have hcl := (h.clock hk hf fun _ _ h => h).nextTime_ge hb
    obtain ⟨s2, r2, k1, k2⟩ := nextEvent_spec c s hk hb.okA hb.okD
    rw [g1] at k1
    simp only [Except.ok.injEq, Prod.mk.injEq] at k1
    obtain ⟨rfl, rfl⟩ := k1
    by_cases hlt : s1.currentT < u
    swap
    · exact ⟨1, s1, by rw [g2]; exact (while_turn hk _ hb1).1 _ (.inl (by simpa using hlt))⟩
    have hlow : pot u φ s1 < pot u φ s := by
      cases r with
      | none =>
        have hcur : s1.currentT = headTime s.arrivals := by
          cases k2 with
          | idle e1 e2 _ => rw [hb.time, nextTime, e1, e2, min_self] at ht; exact absurd ht (lt_irrefl _)
          | arr a rest _ _ _ e _ => rw [e.currentT, e.time_eq]
          | block a rest _ _ _ _ e _ => rw [e.currentT, e.time_eq]
        exact k2.pace hp (hcl.trans (min_le_left _ _)) (hcur ▸ hlt)
      | some a =>
        cases k2 with
        | dep a _ e _ =>
          have := e.pace hp (by rw [e.time_eq]; exact hcl.trans (min_le_right _ _)) (by rw [← e.currentT]; exact hlt)
          omega
    obtain ⟨fuel, s', g3⟩ := ih _ (hv ▸ hlow) hr1 rfl
    exact ⟨fuel + 1, s', by rw [g2]; exact g3⟩

/-- After an arrival or a departure everybody in service leaves at a finite time. -/
theorem fin_step {c : QCfg T} (hsf : ∀ i t, t < ⊤ → c.serviceF i t < ⊤) {s s' : QS T} {r : Option (Agent T)}
    (h : EvOut c s s' r) (hfin : ∀ a ∈ inService s, a.time < ⊤) : ∀ a ∈ inService s', a.time < ⊤ := by
  unfold inService at *
  intro a ha
  cases h with
  | idle e1 e2 e3 => exact hfin a (e3 ▸ ha)
  | dep a0 e0 e _ =>
    obtain ⟨deps, d1, -, d2⟩ := e.served
    rcases d2 with ⟨b', rest, e1, -, e2, -, e4, -, -⟩ | ⟨-, e1, -, e3, -, -⟩
    · rcases List.mem_cons.mp (e4.mem_iff.mp ha) with rfl | ha
      · exact hsf _ _ (by rw [e.time_eq]; exact e0.trans_le le_top)
      · exact hfin a (d1.mem_iff.mpr (List.mem_cons_of_mem _ ha))
    · rw [e3] at ha
      exact hfin a (d1.mem_iff.mpr (List.mem_cons_of_mem _ ha))
  | arr a0 rest _ e0 _ e _ =>
    rcases e.served with ⟨-, e2, -, e3, -, -⟩ | ⟨-, e2, -, e3, -, -⟩
    · rcases List.mem_cons.mp (e3.mem_iff.mp ha) with rfl | ha
      · exact hsf _ _ (by rw [e.time_eq]; exact e0)
      · exact hfin a ha
    · rw [e3] at ha; exact hfin a ha
  | block a0 rest _ _ _ _ e _ => rw [e.departures] at ha; exact hfin a ha

/-- C107: `simulate(nD=m)` ends if there is a server, services are finite, and only so many services and interarrival
times in a row fit before any finite time. -/
theorem C107_simulate_nD_ends {c : QCfg T} (hk : Simple c) (hf : Forward c)
    (hsf : ∀ i t, t < ⊤ → c.serviceF i t < ⊤) (hp : ∀ t < ⊤, ∃ u φ, t < u ∧ PaceQ c u φ)
    {b : Bool} {s : QS T} (m : Nat) (h : Reach c b ClockOk s) (hfin : ∀ a ∈ inService s, a.time < ⊤)
    (hserv : s.numServers.lt 0 = true) (hroom : c.kind = .loss → (s.numServers.add c.buffer).lt 0 = true) :
    ∃ fuel s', simulateD c m fuel s = some (.ok s') := by
  unfold simulateD
  generalize s.numDepartures + m = goal
  generalize hj : goal - s.numDepartures = j
  induction j using Nat.strong_induction_on generalizing s with
  | _ j ihj =>
    by_cases hc : s.numDepartures < goal
    swap
    · exact ⟨0, s, (while_turn hk _ (h.base hk)).1 _ (.inl (by simpa using hc))⟩
    -- while somebody is in service
    have busy : ∀ (D u : T) (φ : T → Nat), D < u → PaceQ c u φ → ∀ v (s1 : QS T), pot u φ s1 = v →
        Reach c b ClockOk s1 → (∀ a ∈ inService s1, a.time < ⊤) → s1.numServers = s.numServers →
        s1.numDepartures = s.numDepartures → headTime s1.departures ≤ D → D < ⊤ →
        ∃ fuel s', simulateWhile c (fun s' => decide (s'.numDepartures < goal)) fuel s1 = some (.ok s') := by
      intro D u φ hDu hφ v
      induction v using Nat.strong_induction_on with
      | _ v ihv =>
        intro s1 hv hr1 hfin1 hns hnd hD hDt
        have hb1 := hr1.base hk
        have ht : s1.time < ⊤ := by
          rw [hb1.time]; exact (min_le_right _ _).trans_lt (hD.trans_lt hDt)
        obtain ⟨s2, r, g1, g2⟩ := (while_turn hk (fun s' => decide (s'.numDepartures < goal)) hb1).2
          (by simpa [hnd] using hc) ht
        have hr2 : Reach c b ClockOk s2 := hr1.step .next trivial (by simp [QOp.run, g1])
        have hcl := (hr1.clock hk hf fun _ _ h => h).nextTime_ge hb1
        obtain ⟨s2', r2, k1, k2⟩ := nextEvent_spec c s1 hk hb1.okA hb1.okD
        rw [g1] at k1
        simp only [Except.ok.injEq, Prod.mk.injEq] at k1
        obtain ⟨rfl, rfl⟩ := k1
        have hfin2 := fin_step hsf k2 hfin1
        suffices hx : ∃ fuel s', simulateWhile c (fun s' => decide (s'.numDepartures < goal)) fuel s2 = some (.ok s') by
          obtain ⟨fuel, s', g3⟩ := hx
          exact ⟨fuel + 1, s', by rw [g2]; exact g3⟩
        have k3 := k2
        cases k2 with
        | idle e1 e2 _ => rw [hb1.time, nextTime, e1, e2, min_self] at ht; exact absurd ht (lt_irrefl _)
        | dep a _ e _ =>
          have e1 := e.numServers
          have e2 := e.numDepartures
          exact ihj (goal - s2.numDepartures) (by omega) hr2 hfin2 (by rw [e1, hns]; exact hserv)
            (by rw [e1, hns]; exact hroom) rfl
        | arr a rest e0 _ _ e _ =>
          have hlow := k3.pace hφ (hcl.trans (min_le_left _ _)) ((e0.trans hD).trans_lt hDu)
          refine ihv _ (hv ▸ hlow) s2 rfl hr2 hfin2 (by rw [e.numServers, hns]) (by rw [e.numDepartures, hnd]) ?_ hDt
          rcases e.served with ⟨-, -, -, e3, -, -⟩ | ⟨-, -, -, e3, -, -⟩
          · rcases hb1.okD.attained with q | ⟨x, q1, q2⟩
            · rw [q] at hD; exact absurd hDt (not_lt.mpr hD)
            · exact (e.okD.le x (e3.mem_iff.mpr (List.mem_cons_of_mem _ q1))).trans (q2 ▸ hD)
          · rw [e3]; exact hD
        | block a rest e0 _ _ _ e _ =>
          have hlow := k3.pace hφ (hcl.trans (min_le_left _ _)) ((e0.trans hD).trans_lt hDu)
          exact ihv _ (hv ▸ hlow) s2 rfl hr2 hfin2 (by rw [e.numServers, hns]) (by rw [e.numDepartures, hnd])
            (by rw [e.departures]; exact hD) hDt
    have go : ∀ s1 : QS T, Reach c b ClockOk s1 → (∀ a ∈ inService s1, a.time < ⊤) → s1.numServers = s.numServers →
        s1.numDepartures = s.numDepartures → inService s1 ≠ [] →
        ∃ fuel s', simulateWhile c (fun s' => decide (s'.numDepartures < goal)) fuel s1 = some (.ok s') := by
      intro s1 hr1 hfin1 hns hnd hne
      obtain ⟨a, ha⟩ := List.exists_mem_of_ne_nil _ hne
      obtain ⟨u, φ, hu, hφ⟩ := hp a.time (hfin1 a ha)
      exact busy a.time u φ hu hφ _ s1 rfl hr1 hfin1 hns hnd ((hr1.base hk).okD.le a ha) (hfin1 a ha)
    by_cases hne : inService s ≠ []
    · exact go s h hfin rfl rfl hne
    have hb := h.base hk
    rcases eq_or_lt_of_le (le_top : s.time ≤ ⊤) with ht | ht
    · exact ⟨0, s, (while_turn hk _ hb).1 _ (.inr ht)⟩
    rw [not_not] at hne
    obtain ⟨s2, r, g1, g2⟩ := (while_turn hk (fun s' => decide (s'.numDepartures < goal)) hb).2 (by simpa using hc) ht
    have hr2 : Reach c b ClockOk s2 := h.step .next trivial (by simp [QOp.run, g1])
    obtain ⟨s2', r2, k1, k2⟩ := nextEvent_spec c s hk hb.okA hb.okD
    rw [g1] at k1
    simp only [Except.ok.injEq, Prod.mk.injEq] at k1
    obtain ⟨rfl, rfl⟩ := k1
    have hfin2 := fin_step hsf k2 hfin
    have hi := h.inv hk
    have hq : s.queue = [] := by
      by_contra hq
      have := hi.work hq
      unfold inService at hne
      rw [hne] at this
      rw [show (([] : List (Agent T)).length : Int) = 0 from rfl, hserv] at this
      simp at this
    have hsys : s.numSystem = 0 := by
      unfold inService at hne
      rw [hi.numSystem, hq, hne]; rfl
    suffices hx : ∃ fuel s', simulateWhile c (fun s' => decide (s'.numDepartures < goal)) fuel s2 = some (.ok s') by
      obtain ⟨fuel, s', g3⟩ := hx
      exact ⟨fuel + 1, s', by rw [g2]; exact g3⟩
    cases k2 with
    | idle e1 e2 _ => rw [hb.time, nextTime, e1, e2, min_self] at ht; exact absurd ht (lt_irrefl _)
    | dep a e0 e _ =>
      rw [hb.okD.top_of_nil hne] at e0
      exact absurd e0 (not_lt.mpr le_top)
    | arr a rest e0 _ _ e _ =>
      refine go s2 hr2 hfin2 e.numServers e.numDepartures ?_
      rcases e.served with ⟨-, -, -, e3, -, -⟩ | ⟨e1, -⟩
      · intro h0
        unfold inService at h0
        rw [h0] at e3
        simpa using e3.length_eq
      · rw [Cap.le_eq_lt, hsys, hserv] at e1
        simp at e1
    | block a rest _ _ e0 e1 e _ =>
      rw [hsys, hroom e0] at e1
      simp at e1

/-- C107 in numbers: if, in exact arithmetic, services and interarrival times take at least `δ > 0`, then the two
theorems above apply. -/
theorem C107_pace_of_step {K : Type*} [Field K] [LinearOrder K] [IsStrictOrderedRing K] [FloorSemiring K]
    {c : QCfg (WithTop K)} {δ : K} (hδ : 0 < δ) (hsvc : ∀ i t, t + (δ : WithTop K) ≤ c.serviceF i t)
    (harr : ∀ i t, t + (δ : WithTop K) ≤ c.arrivalF i t) :
    Forward c ∧ (∀ u : K, ∃ φ, PaceQ c (u : WithTop K) φ) ∧
      ∀ t : WithTop K, t < ⊤ → ∃ u φ, t < u ∧ PaceQ c u φ := by
  have key : ∀ u : K, ∃ φ, PaceQ c (u : WithTop K) φ := fun u =>
    ⟨fun t => ⌈(u - t.untopD u) / δ⌉₊, NetSpec.pace_anti hδ u, fun i t h => NetSpec.pace_key hδ u _ _ (hsvc i t) h,
      fun i t h => NetSpec.pace_key hδ u _ _ (harr i t) h⟩
  have up : ∀ t : WithTop K, t ≤ t + (δ : WithTop K) := by
    intro t
    induction t with
    | top => simp
    | coe t => exact_mod_cast (le_add_of_nonneg_right hδ.le : t ≤ t + δ)
  refine ⟨⟨fun n t => (up t).trans (harr n t), fun n t => (up t).trans (hsvc n t)⟩, key, fun t ht => ?_⟩
  lift t to K using ht.ne
  obtain ⟨φ, hφ⟩ := key (t + 1)
  exact ⟨_, φ, by exact_mod_cast lt_add_one t, hφ⟩

/-! ## Examples and counterexamples -/

/-- In whole numbers a step of at least 1 is enough. -/
theorem pace_whole {c : QCfg ℕ∞} (hsvc : ∀ i t, t + 1 ≤ c.serviceF i t) (harr : ∀ i t, t + 1 ≤ c.arrivalF i t) (u : ℕ) :
    PaceQ c (u : ℕ∞) fun t => u - t.toNat := by
  have key : ∀ s t : ℕ∞, t + 1 ≤ s → s < (u : ℕ∞) → u - s.toNat < u - t.toNat := by
    intro s t h1 h2
    lift s to ℕ using h2.ne_top
    have ht : t ≠ ⊤ := by rintro rfl; simp at h1
    lift t to ℕ using ht
    have h3 : t + 1 ≤ s := by exact_mod_cast h1
    have h4 : s < u := by exact_mod_cast h2
    simp only [ENat.toNat_natCast]
    omega
  refine ⟨fun s t h1 h2 => ?_, fun i t h => key _ _ (hsvc i t) h, fun i t h => key _ _ (harr i t) h⟩
  lift t to ℕ using h2.ne_top
  lift s to ℕ using (h1.trans_lt h2).ne_top
  have : s ≤ t := by exact_mod_cast h1
  simp only [ENat.toNat_natCast]
  omega

/-- The hypotheses are met by a LossQueue with one server busy, one agent waiting and one to come. -/
example : let s := resOps demoLoss true demoOps
    Reach demoLoss true ClockOk s ∧ Forward demoLoss ∧ (∃ φ, PaceQ demoLoss (s.currentT + 10) φ) ∧
    (∀ i t, t < ⊤ → demoLoss.serviceF i t < ⊤) ∧ (∀ t < ⊤, ∃ u φ, t < u ∧ PaceQ demoLoss u φ) ∧
    (∀ a ∈ inService s, a.time < ⊤) ∧ s.numServers.lt 0 = true ∧ (s.numServers.add demoLoss.buffer).lt 0 = true ∧
    (agents s.arrivals).length = 1 ∧ s.queue.length = 1 ∧ (inService s).length = 1 := by
  have h1 : ∀ i t, t + 1 ≤ demoLoss.serviceF i t := fun i t => add_le_add_right (by decide : (1 : ℕ∞) ≤ 3) t
  have h2 : ∀ i t, t + 1 ≤ demoLoss.arrivalF i t := fun i t => le_rfl
  refine ⟨?_, ⟨fun _ _ => le_self_add, fun _ _ => le_self_add⟩, ⟨_, (by decide +kernel : (resOps demoLoss true demoOps).currentT + 10 = ((15 : ℕ) : ℕ∞)) ▸ pace_whole h1 h2 15⟩, ?_, ?_, by decide +kernel⟩
  · exact Reach.init.ofOps demoOps (by simp [okOps, demoOps, ClockOk]) (by decide +kernel)
  · intro i t h
    lift t to ℕ using h.ne
    exact WithTop.coe_lt_top (t + 3)
  · intro t h
    lift t to ℕ using h.ne
    exact ⟨_, _, by exact_mod_cast Nat.lt_succ_self t, pace_whole h1 h2 (t + 1)⟩

/-- A queue without limits on the outside stream stays active. -/
theorem ext_new {c : QCfg T} (hcap : c.activeCap = .inf) (hoff : c.deactiveT = ⊤) {s s' : QS T} {t : T}
    {rest : List (Slot T)} (h : ExtSpec c s s' t rest) (ha : s.active = true) (hn : s.nextCt ≤ t)
    (hfin : c.arrivalF s.arrCalls t < ⊤) :
    s'.active = true ∧ s'.nextCt = c.arrivalF s.arrCalls t ∧
      ∃ b, b.time = c.arrivalF s.arrCalls t ∧ (agents s'.arrivals).Perm (b :: agents rest) := by
  obtain ⟨ext, x1, x2, -, -⟩ := h.ext
  generalize s'.nextCt = ν at x1
  generalize s'.active = act at x1
  generalize s'.arrCalls = calls at x1
  cases x1 with
  | inactive q => rw [ha] at q; simp at q
  | early q q' => exact absurd hn (not_le.mpr q')
  | off q q' q'' => rw [hoff] at q''; exact absurd hfin (not_lt.mpr q'')
  | new q q' q'' => exact ⟨by rw [hcap]; rfl, rfl, _, rfl, x2⟩

/-- Arrivals that take no time: `simulate(t=1)` never ends. -/
theorem C107_t_endless : ∃ (c : QCfg ℕ∞) (s : QS ℕ∞), c.kind = .server ∧ Forward c ∧
    (∀ i t, c.serviceF i t = t + 3) ∧ Reach c true ClockOk s ∧ ∀ fuel, simulateT c 1 fuel s = none := by
  let c : QCfg ℕ∞ := { demo with arrivalF := fun _ t => t }
  have hk : Simple c := .inl rfl
  have hr : Reach c true ClockOk (resOps c true [.setActive]) :=
    Reach.init.ofOps [.setActive] (by simp [okOps, ClockOk]) (by decide +kernel)
  refine ⟨c, _, rfl, ⟨fun _ _ => le_rfl, fun _ _ => le_self_add⟩, fun _ _ => rfl, hr, ?_⟩
  have main : ∀ fuel (s : QS ℕ∞), QBase s → s.currentT = 0 → s.active = true → s.nextCt = 0 → headTime s.arrivals = 0 →
      simulateWhile c (fun s' => decide (s'.currentT < 0 + 1)) fuel s = none := by
    intro fuel
    induction fuel with
    | zero =>
      intro s hb h1 h2 h3 h4
      have ht : s.time < ⊤ := by rw [hb.time, nextTime, h4]; simp
      simp [simulateWhile, h1, ht]
    | succ fuel ih =>
      intro s hb h1 h2 h3 h4
      have ht : s.time < ⊤ := by rw [hb.time, nextTime, h4]; simp
      obtain ⟨s1, r, g1, g2⟩ := (while_turn hk (fun s' => decide (s'.currentT < 0 + 1)) hb).2 (by simp [h1]) ht
      obtain ⟨s2, r2, k1, k2⟩ := nextEvent_spec c s hk hb.okA hb.okD
      rw [g1] at k1
      simp only [Except.ok.injEq, Prod.mk.injEq] at k1
      obtain ⟨rfl, rfl⟩ := k1
      rw [g2]
      cases k2 with
      | idle e1 _ _ => rw [h4] at e1; simp at e1
      | dep a e0 _ _ => rw [h4] at e0; simp at e0
      | block a rest _ _ e0 _ _ _ => simp [c, demo] at e0
      | arr a rest _ _ _ e _ =>
        have hat : a.time = 0 := by rw [e.time_eq, h4]
        obtain ⟨x1, x2, y, x3, x4⟩ := ext_new (c := c) rfl rfl e.ext h2 (by rw [h3, hat]) (by
          show a.time < ⊤; rw [hat]; simp)
        refine ih s1 ⟨e.okA, e.okD, e.time⟩ (by rw [e.currentT, hat]) x1 (x2.trans hat) ?_
        refine le_antisymm ?_ zero_le
        have := e.okA.le y (x4.mem_iff.mpr (List.mem_cons_self ..))
        rw [x3] at this
        exact this.trans hat.le
  intro fuel
  have h0 : (resOps c true [.setActive]).currentT = 0 := by decide +kernel
  rw [simulateT, h0]
  exact main fuel _ (hr.base hk) h0 (by decide +kernel) (by decide +kernel) (by decide +kernel)

/-- Services that never end: `simulate(nD=1)` never ends. -/
theorem C107_nD_endless : ∃ (c : QCfg ℕ∞) (s : QS ℕ∞), c.kind = .server ∧ Forward c ∧
    (∀ i t, c.arrivalF i t = t + 1) ∧ Reach c true ClockOk s ∧ ∀ fuel, simulateD c 1 fuel s = none := by
  let c : QCfg ℕ∞ := { demo with serviceF := fun _ _ => ⊤ }
  have hk : Simple c := .inl rfl
  have hr : Reach c true ClockOk (resOps c true [.setActive]) :=
    Reach.init.ofOps [.setActive] (by simp [okOps, ClockOk]) (by decide +kernel)
  refine ⟨c, _, rfl, ⟨fun _ _ => le_self_add, fun _ _ => le_top⟩, fun _ _ => rfl, hr, ?_⟩
  have main : ∀ fuel (s : QS ℕ∞), QBase s → s.numDepartures = 0 → s.active = true → s.nextCt < ⊤ →
      (∃ y, agents s.arrivals = [y] ∧ y.time = s.nextCt) → (∀ a ∈ inService s, a.time = ⊤) →
      simulateWhile c (fun s' => decide (s'.numDepartures < 0 + 1)) fuel s = none := by
    intro fuel
    have arrT : ∀ s : QS ℕ∞, QBase s → (∃ y, agents s.arrivals = [y] ∧ y.time = s.nextCt) → s.nextCt < ⊤ →
        headTime s.arrivals = s.nextCt ∧ s.time < ⊤ := by
      rintro s hb ⟨y, h1, h2⟩ h3
      have h4 := hb.okA.le y (by rw [h1]; simp)
      have h5 : headTime s.arrivals = s.nextCt := by
        rcases hb.okA.attained with h | ⟨x, hx, h⟩
        · rw [h, h2] at h4; exact absurd h3 (not_lt.mpr h4)
        · rw [h1, List.mem_singleton] at hx; rw [← h, hx, h2]
      exact ⟨h5, by rw [hb.time]; exact (min_le_left _ _).trans_lt (h5 ▸ h3)⟩
    have depT : ∀ s : QS ℕ∞, QBase s → (∀ a ∈ inService s, a.time = ⊤) → headTime s.departures = ⊤ := by
      intro s hb h
      rcases hb.okD.attained with q | ⟨x, hx, q⟩
      · exact q
      · rw [← q, h x hx]
    induction fuel with
    | zero =>
      intro s hb h1 h2 h3 h4 h5
      simp [simulateWhile, h1, (arrT s hb h4 h3).2]
    | succ fuel ih =>
      intro s hb h1 h2 h3 h4 h5
      obtain ⟨ht1, ht⟩ := arrT s hb h4 h3
      have hdt := depT s hb h5
      obtain ⟨s1, r, g1, g2⟩ := (while_turn hk (fun s' => decide (s'.numDepartures < 0 + 1)) hb).2 (by simp [h1]) ht
      obtain ⟨s2, r2, k1, k2⟩ := nextEvent_spec c s hk hb.okA hb.okD
      rw [g1] at k1
      simp only [Except.ok.injEq, Prod.mk.injEq] at k1
      obtain ⟨rfl, rfl⟩ := k1
      rw [g2]
      cases k2 with
      | idle e1 _ _ => rw [ht1] at e1; exact absurd e1 h3.ne
      | dep a e0 _ _ => rw [hdt] at e0; exact absurd e0 (not_lt.mpr le_top)
      | block a rest _ _ e0 _ _ _ => simp [c, demo] at e0
      | arr a rest _ _ _ e _ =>
        have hat : a.time = s.nextCt := by rw [e.time_eq, ht1]
        have hfin : c.arrivalF s.arrCalls a.time < ⊤ := by
          show a.time + 1 < ⊤
          rw [hat]
          generalize s.nextCt = x at h3
          lift x to ℕ using h3.ne
          exact WithTop.coe_lt_top (x + 1)
        obtain ⟨x1, x2, y, x3, x4⟩ := ext_new (c := c) rfl rfl e.ext h2 hat.ge hfin
        have hrest : agents rest = [] := by
          obtain ⟨z, q, -⟩ := h4
          have := e.perm.length_eq
          rw [q] at this
          simpa using this.symm
        rw [hrest] at x4
        refine ih s1 ⟨e.okA, e.okD, e.time⟩ (by rw [e.numDepartures, h1]) x1 (x2 ▸ hfin)
          ⟨y, List.perm_singleton.mp x4, x3.trans x2.symm⟩ ?_
        intro z hz
        unfold inService at hz h5
        rcases e.served with ⟨-, -, -, e3, -, -⟩ | ⟨-, -, -, e3, -, -⟩
        · rcases List.mem_cons.mp (e3.mem_iff.mp hz) with rfl | hz
          · rfl
          · exact h5 z hz
        · exact h5 z (e3 ▸ hz)
  intro fuel
  have h0 : (resOps c true [.setActive]).numDepartures = 0 := by decide +kernel
  rw [simulateD, h0]
  exact main fuel _ (hr.base hk) h0 (by decide +kernel) (by decide +kernel)
    ⟨⟨(7, 0), 1, 0, .plain⟩, by decide +kernel, by decide +kernel⟩ (by decide +kernel)

end Verif.QueueSpec
