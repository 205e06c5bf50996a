import Verif.QueueInv3
import Verif.Props.QueueWit

/-!
# Properties C05-C13 of QueueServer and LossQueue

`Reach c b ok s`: `s` is the state after some sequence of API calls (any length) allowed by `ok` on a
queue constructed with parameters `c` and `collect_data = b`. `fun _ _ => True` allows everything.
In a state `s`: `agents s.arrivals` are the scheduled agents, `s.queue` the waiting ones,
`inService s` those in service; `s.log` is the list of calls `agent.queue_action(queue, stage)`.
-/

set_option linter.unusedSectionVars false

namespace Verif.QueueSpec

variable {T : Type*} [LinearOrder T] [OrderTop T] [Zero T]

/-- Everything is allowed. -/
abbrev anyOp : QS T → QOp T → Prop := fun _ _ => True

/-- C05: `num_system` = waiting + in service; admitted = departed + in the system. -/
theorem C05_census {c : QCfg T} (hk : Simple c) {b : Bool} {s : QS T} (h : Reach c b anyOp s) :
    s.numSystem = (numberQueued c s : Int) + (inService s).length ∧
    (s.numArrivals : Int) = s.numDepartures + s.numSystem := by
  have hi := h.inv hk
  refine ⟨?_, hi.counts⟩
  simp only [numberQueued, hk.ne_null, if_false]
  exact hi.numSystem

example : Reach demo true anyOp (resOps demo true demoOps) ∧
    (resOps demo true demoOps).numSystem = 4 ∧ (resOps demo true demoOps).queue.length = 3 :=
  ⟨reachOps _ _ _ (by decide +kernel), by decide +kernel, by decide +kernel⟩

/-- C06: `_num_total` = scheduled + waiting + in service. -/
theorem C06_total_census {c : QCfg T} (hk : Simple c) {b : Bool} {s : QS T} (h : Reach c b anyOp s) :
    s.numTotal = ((agents s.arrivals).length + s.queue.length + (inService s).length : Nat) := by
  have hi := h.inv hk
  rw [hi.numTotal, hi.numSystem]
  simp only [inService]; push_cast; omega

example : (resOps demo true (demoOps ++ [.handover ⟨(3, 0), 100, 0, .plain⟩])).numTotal = 6 := by
  decide +kernel

/-- C07: nobody waits while a server is idle. -/
theorem C07_work_conserving {c : QCfg T} (hk : Simple c) {b : Bool} {s : QS T}
    (h : Reach c b anyOp s) (hq : 0 < numberQueued c s) :
    ∃ n : Int, s.numServers = .fin n ∧ n ≤ (inService s).length := by
  have hi := h.inv hk
  simp only [numberQueued, hk.ne_null, if_false] at hq
  have := hi.work (by intro h0; rw [h0] at hq; simp at hq)
  cases hs : s.numServers with
  | inf => rw [hs] at this; simp [Cap.lt] at this
  | fin n => rw [hs] at this; simp [Cap.lt] at this; exact ⟨n, rfl, this⟩

example : 0 < numberQueued demo (resOps demo true (demoOps ++ [.setServers (.int 2)])) := by
  decide +kernel

/-- C08, first part: if the number of servers is never lowered, the number of agents in service never
exceeds the number of servers. MISSING from the full property: histories that lower the number of servers
and then raise it, for which the property is false (`C08_lower_raise_oversubscribes`). -/
theorem C08_not_oversubscribed_partial {c : QCfg T} (hk : Simple c) {b : Bool} {s : QS T}
    (h0 : ∀ n, c.servers = .fin n → 0 ≤ n) (h : Reach c b NoLower s) :
    ∀ n : Int, s.numServers = .fin n → (inService s).length ≤ n := by
  intro n hn
  have := h.srvInv hk (by
    cases hs : c.servers with
    | inf => rfl
    | fin m => simp [Cap.le, h0 m hs]) (fun _ _ h => h)
  simpa [SrvInv, hn, Cap.le, inService] using this

/-- C08, second part, for every history: no event starts a service when all servers are busy. -/
theorem C08_event_respects_servers_partial {c : QCfg T} (hk : Simple c) {b : Bool} {s s' : QS T}
    {r : Option (Agent T)} (h : Reach c b anyOp s) (hn : nextEvent c s = .ok (s', r)) :
    (inService s').length ≤ (inService s).length ∨
      ∀ n : Int, s'.numServers = .fin n → (inService s').length ≤ n := by
  obtain ⟨s1, r1, h1, h2⟩ := nextEvent_spec c s hk (h.base hk).okA (h.base hk).okD
  rw [h1] at hn
  simp only [Except.ok.injEq, Prod.mk.injEq] at hn
  obtain ⟨rfl, rfl⟩ := hn
  rcases h2.servers (h.inv hk) with h3 | h3
  · exact .inl h3
  · refine .inr fun n hn => ?_
    simpa [hn, Cap.le, inService] using h3

/-- F3: three servers, three agents in service, lowered to one and raised to two: a fourth
agent starts service although three are in service and there are two servers. -/
theorem C08_lower_raise_oversubscribes :
    let c : QCfg ℕ∞ := { demo with servers := .fin 3, serviceF := fun _ t => t + 100 }
    let s := resOps c true
      [.setActive, .next, .next, .next, .next, .next, .setServers (.int 1), .setServers (.int 2)]
    Reach c true anyOp s ∧ s.numServers = .fin 2 ∧ (inService s).length = 4 := by
  exact ⟨reachOps _ _ _ (by decide +kernel), by decide +kernel, by decide +kernel⟩

/-- C09: first come first served. -/
theorem C09_fcfs {c : QCfg T} (hk : Simple c) {b : Bool} {s : QS T} (h : Reach c b anyOp s) :
    stageIds 1 s.log ++ s.queue.map (·.id) = stageIds 0 s.log :=
  (h.inv hk).fifo

example : stageIds 1 (resOps demo true demoOps).log = [(7, 0), (7, 1)] ∧
    stageIds 0 (resOps demo true demoOps).log = [(7, 0), (7, 1), (7, 2), (7, 3), (7, 4)] := by
  decide +kernel

/-- C10: at every moment of the past (every prefix `p` of the calls), every agent `x` had at most as many
service ends as service starts and at most as many starts as admissions; the agents whose service started
are those that departed and those in service; and the starts that are missing are the waiting agents. -/
theorem C10_served_once {c : QCfg T} (hk : Simple c) {b : Bool} {s : QS T} (h : Reach c b anyOp s) :
    (∀ p, p <+: s.log → ∀ x, p.count (x, 2) ≤ p.count (x, 1) ∧ p.count (x, 1) ≤ p.count (x, 0)) ∧
    (stageIds 1 s.log).Perm (stageIds 2 s.log ++ (inService s).map (·.id)) ∧
    ∀ x, s.log.count (x, 0) = s.log.count (x, 1) + (s.queue.map (·.id)).count x := by
  refine ⟨h.prefOk hk, (h.inv hk).once, fun x => ?_⟩
  have := congrArg (List.count x) (h.inv hk).fifo
  simp only [List.count_append, stageIds_count] at this
  omega

/-- C10, per event: a departure event reports exactly the returned agent as served. -/
theorem C10_departure_logged {c : QCfg T} (hk : Simple c) {b : Bool} {s s' : QS T} {a : Agent T}
    (h : Reach c b anyOp s) (hn : nextEvent c s = .ok (s', some a)) :
    stageIds 2 s'.log = stageIds 2 s.log ++ [a.id] ∧ stageIds 0 s'.log = stageIds 0 s.log := by
  obtain ⟨s1, r1, h1, h2⟩ := nextEvent_spec c s hk (h.base hk).okA (h.base hk).okD
  rw [h1] at hn
  simp only [Except.ok.injEq, Prod.mk.injEq] at hn
  obtain ⟨rfl, rfl⟩ := hn
  cases h2 with
  | dep a _ h3 _ =>
    obtain ⟨deps, g1, g2, g3⟩ := h3.served
    rcases g3 with ⟨b, rest, -, -, -, -, -, e4, -⟩ | ⟨-, -, -, -, e3, -⟩
    · rw [e4]; simp
    · rw [e3]; simp

example : ∃ s', nextEvent demo (resOps demo true demoOps) = .ok (s', none) := ⟨_, rfl⟩

/-- C11: with `arrival_f(t) >= t` and `service_f(t) >= t`, and agents handed over (services delayed) to a
time not before now, the clock never runs backwards (except at `clear`) and never passes `time`. -/
theorem C11_clock {c : QCfg T} (hk : Simple c) {b : Bool} {s : QS T}
    (ha : ∀ n t, t ≤ c.arrivalF n t) (hs : ∀ n t, t ≤ c.serviceF n t) (h : Reach c b ClockOk s) :
    s.currentT ≤ s.time ∧
    ∀ op s', ClockOk s op → op ≠ .clear → op.run c s = .ok s' → s.currentT ≤ s'.currentT := by
  have hb := h.base hk
  have hc := h.clock hk ⟨ha, hs⟩ (fun _ _ h => h)
  refine ⟨?_, fun op s' hok hne hr => ?_⟩
  · rw [hb.time]; exact hc.nextTime_ge hb
  · exact (hc.step hk ⟨ha, hs⟩ hb hok (opOut c s s' op hk hb hr)).2 hne

example : ∀ s : QS ℕ∞, ClockOk s .next := fun _ => trivial

example : (∀ n t, t ≤ demo.arrivalF n t) ∧ ∀ n t, t ≤ demo.serviceF n t :=
  ⟨fun _ _ => le_self_add, fun _ _ => le_self_add⟩

/-- C12: `time` is the least time of a scheduled arrival or departure (infinity if there is none), and
an event takes place exactly at that time. -/
theorem C12_time_next_event {c : QCfg T} (hk : Simple c) {b : Bool} {s : QS T} (h : Reach c b anyOp s) :
    (∀ a ∈ agents s.arrivals ++ inService s, s.time ≤ a.time) ∧
    (s.time < ⊤ → ∃ a ∈ agents s.arrivals ++ inService s, a.time = s.time) ∧
    (s.time < ⊤ → ∃ s' r, nextEvent c s = .ok (s', r) ∧ s'.currentT = s.time) := by
  have hb := h.base hk
  refine ⟨?_, ?_, ?_⟩
  · intro a ha
    rw [hb.time]
    rcases List.mem_append.mp ha with ha | ha
    · exact (min_le_left _ _).trans (hb.okA.le a ha)
    · exact (min_le_right _ _).trans (hb.okD.le a ha)
  · intro hlt
    rw [hb.time] at hlt ⊢
    rcases min_choice (headTime s.arrivals) (headTime s.departures) with h1 | h1
    · rcases hb.okA.attained with h2 | ⟨a, ha, h2⟩
      · rw [nextTime, h1, h2] at hlt; exact absurd hlt (lt_irrefl _)
      · exact ⟨a, List.mem_append.mpr (.inl ha), by rw [nextTime, h1, h2]⟩
    · rcases hb.okD.attained with h2 | ⟨a, ha, h2⟩
      · rw [nextTime, h1, h2] at hlt; exact absurd hlt (lt_irrefl _)
      · exact ⟨a, List.mem_append.mpr (.inr ha), by rw [nextTime, h1, h2]⟩
  · intro hlt
    obtain ⟨s1, r1, h1, h2⟩ := nextEvent_spec c s hk hb.okA hb.okD
    refine ⟨s1, r1, h1, ?_⟩
    rw [hb.time] at hlt ⊢
    cases h2 with
    | idle e1 e2 _ => rw [nextTime, e1, e2, min_self] at hlt; exact absurd hlt (lt_irrefl _)
    | dep a e1 e2 _ => rw [e2.currentT, e2.time_eq, nextTime, min_eq_right e1.le]
    | arr a rest e1 _ _ e2 _ => rw [e2.currentT, e2.time_eq, nextTime, min_eq_left e1]
    | block a rest e1 _ _ _ e2 _ => rw [e2.currentT, e2.time_eq, nextTime, min_eq_left e1]

example : (resOps demo true demoOps).time = 6 := by decide +kernel

/-- C13: what `next_event_description` announces happens. -/
theorem C13_description {c : QCfg T} (hk : Simple c) {b : Bool} {s : QS T} (h : Reach c b anyOp s) :
    (nextEventDescription c s = 2 → ∃ s' a, nextEvent c s = .ok (s', some a) ∧
      s'.numDepartures = s.numDepartures + 1 ∧ s'.numArrivals = s.numArrivals) ∧
    (nextEventDescription c s = 1 → ∃ s', nextEvent c s = .ok (s', none) ∧
      s'.numDepartures = s.numDepartures ∧
      s'.numArrivals + s'.numBlocked = s.numArrivals + s.numBlocked + 1) ∧
    (nextEventDescription c s = 0 → nextEvent c s = .ok (s, none)) ∧
    nextEventDescription c s ≤ 2 := by
  have hb := h.base hk
  obtain ⟨s1, r1, h1, h2⟩ := nextEvent_spec c s hk hb.okA hb.okD
  have hd : nextEventDescription c s = if headTime s.departures < headTime s.arrivals then 2
      else if headTime s.arrivals < ⊤ then 1 else 0 := by
    simp only [nextEventDescription, hk.ne_null, if_false]
  rw [hd]
  cases h2 with
  | idle e1 e2 e3 =>
    subst e3
    rw [e1, e2]
    simp [h1]
  | dep a e1 e2 _ =>
    simp only [e1, if_true]
    exact ⟨fun _ => ⟨s1, a, h1, e2.numDepartures, e2.numArrivals⟩, by simp, by simp, by simp⟩
  | arr a rest e1 e3 _ e2 _ =>
    simp only [not_lt.mpr e1, if_false, e3, if_true]
    refine ⟨by simp, fun _ => ⟨s1, h1, e2.numDepartures, ?_⟩, by simp, by simp⟩
    rw [e2.numArrivals, e2.numBlocked]; omega
  | block a rest e1 e3 _ _ e2 _ =>
    simp only [not_lt.mpr e1, if_false, e3, if_true]
    refine ⟨by simp, fun _ => ⟨s1, h1, e2.numDepartures, ?_⟩, by simp, by simp⟩
    rw [e2.numArrivals, e2.numBlocked]; omega

example : nextEventDescription demo (resOps demo true demoOps) = 1 ∧
    nextEventDescription demo (resOps demo true [.setActive, .next, .next, .next]) = 1 ∧
    nextEventDescription demo (resOps demo true []) = 0 := by decide +kernel

end Verif.QueueSpec
