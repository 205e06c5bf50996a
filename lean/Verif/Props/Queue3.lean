import Verif.Props.Queue1
import Verif.QueueShift
import Verif.QueueAct
import Verif.QueueFetch
import Mathlib.Algebra.BigOperators.Group.List.Basic
import Mathlib.Algebra.Order.BigOperators.Group.List

/-! # Properties C21-C30 -/

set_option linter.unusedSectionVars false

namespace Verif.QueueSpec

variable {T : Type*} [LinearOrder T] [OrderTop T] [Zero T]

/-! ## C21 -/

/-- Counters that a `QueueServer` never touches. -/
theorem untouched {c : QCfg T} (hk : Simple c) {b : Bool} {s : QS T} (h : Reach c b anyOp s) :
    (c.kind = .server → s.numBlocked = 0) ∧ s.overMax = 0 := by
  refine h.induct (P := fun s => (c.kind = .server → s.numBlocked = 0) ∧ s.overMax = 0) hk
    ⟨fun _ => rfl, rfl⟩ ?_
  intro s s' op hb hi _ ho
  cases ho with
  | ev s' r _ h1 =>
    cases h1 with
    | idle _ _ h2 => rw [h2]; exact hi
    | dep a _ h2 _ => rw [h2.numBlocked, h2.overMax]; exact hi
    | arr a rest _ _ _ h2 _ => rw [h2.numBlocked, h2.overMax]; exact hi
    | block a rest _ _ hl _ h2 _ =>
      rw [h2.overMax]
      exact ⟨fun hs => by rw [hs] at hl; simp at hl, hi.2⟩
  | already => exact hi
  | act => exact hi
  | inact => exact hi
  | srv n s' r h1 => cases h1 <;> exact hi
  | delay t kb s' h1 => cases h1 <;> exact hi
  | collect => exact hi
  | noteFull hl => exact ⟨fun hs => by rw [hs] at hl; simp at hl, hi.2⟩
  | noteOpen => exact hi
  | clearData => exact hi
  | clear =>
    rw [clear_simple c s hk]
    exact ⟨fun hs => by simp only [hs, if_true]; exact hi.1 hs, hi.2⟩
  | handover => exact hi

/-- What one can see of a queue: everything but the number of calls made so far to the user's functions. -/
def visible (s : QS T) : QS T := { s with arrCalls := 0, svcCalls := 0 }

/-- The constructor's parameters for a queue like `c` that has `n` servers and whose functions have been
called `k1` and `k2` times before. -/
def anew (c : QCfg T) (n : Cap) (k1 k2 : Nat) : QCfg T :=
  { c with servers := n, arrivalF := fun i => c.arrivalF (k1 + i), serviceF := fun i => c.serviceF (k2 + i) }

/-- C21, the state: a cleared queue looks exactly like a newly constructed one with the same parameters
(the number of servers and the `collect_data` flag being the current ones). -/
theorem C21_clear_state {c : QCfg T} (hk : Simple c) {b : Bool} {s : QS T} (h : Reach c b anyOp s) :
    visible (clear c s) = QS.init { c with servers := s.numServers } s.collectData := by
  obtain ⟨h1, h2⟩ := untouched hk h
  rw [clear_simple c s hk]
  rcases hk with hk | hk
  · simp [visible, QS.init, h1 hk, h2]
  · simp [visible, QS.init, hk, h2]

theorem run_servers (c : QCfg T) (n : Cap) (s : QS T) (op : QOp T) :
    op.run { c with servers := n } s = op.run c s := by
  have sfq : ∀ s, serviceFromQueue { c with servers := n } s = serviceFromQueue c s := fun _ => rfl
  have sm : ∀ k s, serviceMany { c with servers := n } k s = serviceMany c k s := by
    intro k
    induction k with
    | zero => intro s; rfl
    | succ k ih => intro s; simp only [serviceMany, sfq, ih]
  cases op with
  | setServers m => simp only [QOp.run, setNumServers, sm, resourceSetServers]
  | _ => rfl

/-- C21, the behaviour: whatever is done with a cleared queue afterwards (`set_active`, simulating, ...) goes
exactly as with a new queue that is given the remaining values of the user's functions; the same
exceptions are raised. -/
theorem C21_clear_behaviour {c : QCfg T} (hk : Simple c) {b : Bool} {s : QS T} (h : Reach c b anyOp s)
    (ops : List (QOp T)) :
    let c' := anew c s.numServers s.arrCalls s.svcCalls
    mapOk visible (runOps c (clear c s) ops)
      = mapOk visible (runOps c' (QS.init c' s.collectData) ops) := by
  intro c'
  have hstate : clear c s = (QS.init c' s.collectData).shift s.arrCalls s.svcCalls := by
    obtain ⟨h1, h2⟩ := untouched hk h
    rw [clear_simple c s hk]
    rcases hk with hk | hk
    · simp [QS.shift, QS.init, h1 hk, h2, c', anew]
    · simp [QS.shift, QS.init, hk, h2, c', anew]
  rw [hstate]
  generalize QS.init c' s.collectData = s0
  have main : ∀ s0, runOps c (s0.shift s.arrCalls s.svcCalls) ops
      = mapOk (QS.shift s.arrCalls s.svcCalls) (runOps c' s0 ops) := by
    induction ops with
    | nil => intro s0; rfl
    | cons op ops ih =>
      intro s0
      simp only [runOps]
      rw [run_shift c _ _ hk]
      have e : op.run (c.later s.arrCalls s.svcCalls) s0 = op.run c' s0 :=
        (run_servers (c.later s.arrCalls s.svcCalls) s.numServers s0 op).symm
      rw [e]
      cases op.run c' s0 with
      | error e => rfl
      | ok s1 => simp only [mapOk]; exact ih s1
  rw [main s0]
  cases runOps c' s0 ops <;> rfl

example : (resOps demo true demoOps).numArrivals = 5 ∧
    visible (clear demo (resOps demo true demoOps)) = QS.init demo true := by
  constructor <;> decide +kernel

/-- F8: `NullQueue.clear` does nothing; the recorded data stay. -/
theorem C21_null_queue_keeps_data :
    let c : QCfg ℕ∞ := { demo with kind := .null }
    let s := resOps c true [.handover ⟨(3, 0), 5, 0, .plain⟩, .clear]
    Reach c true anyOp s ∧ s.data ≠ [] :=
  ⟨reachOps _ _ _ (by decide +kernel), by decide +kernel⟩

/-- F6: `ResourceQueue.clear` does not restore the servers taken by agents. -/
theorem C21_resource_queue_keeps_servers :
    let c : QCfg ℕ∞ := { demo with kind := .resource, servers := .fin 3, factory := .resource false false }
    let s := resOps c true [.setActive, .next, .clear]
    Reach c true anyOp s ∧ s.numServers ≠ c.servers :=
  ⟨reachOps _ _ _ (by decide +kernel), by decide +kernel⟩

/-! ## C22, C23 -/

/-- C22: with the number of servers never lowered, a LossQueue never holds more than
`num_servers + buffer` agents, and `at_capacity()` says exactly when it holds that many. -/
theorem C22_capacity {c : QCfg T} (hk : c.kind = .loss) {b : Bool} {s : QS T}
    (h0 : (c.servers.add c.buffer).le 0 = true) (h : Reach c b NoLower s) :
    (∀ n : Int, s.numServers.add c.buffer = .fin n →
      s.numSystem ≤ n ∧ (atCapacity c s = true ↔ s.numSystem = n)) ∧
    (s.numServers.add c.buffer = .inf → atCapacity c s = false) := by
  have hr := h.roomInv hk h0 (fun _ _ h => h)
  unfold RoomInv at hr
  refine ⟨fun n hn => ?_, fun hn => ?_⟩
  · rw [hn] at hr
    simp only [Cap.le, decide_eq_true_eq] at hr
    refine ⟨hr, ?_⟩
    simp only [atCapacity, hk, hn, Cap.lt]
    simp only [Bool.not_eq_true', decide_eq_false_iff_not, not_lt]
    omega
  · simp [atCapacity, hk, hn, Cap.lt]

example : let s := resOps demoLoss true demoOps
    s.numSystem = 2 ∧ atCapacity demoLoss s = true ∧ s.numBlocked = 2 := by decide +kernel

/-- C23: an arrival at a LossQueue that is at capacity is turned away: `num_blocked` and the agent's own
counter grow by one and nobody is admitted; otherwise the agent is admitted and nothing is blocked. -/
theorem C23_blocked_iff_full {c : QCfg T} (hk : c.kind = .loss) {b : Bool} {s s' : QS T}
    {r : Option (Agent T)} (h : Reach c b anyOp s) (hd : nextEventDescription c s = 1)
    (hn : nextEvent c s = .ok (s', r)) :
    ∃ a : Agent T, s.arrivals.head? = some (.agent a) ∧ r = none ∧
      (atCapacity c s = true →
        s'.numBlocked = s.numBlocked + 1 ∧ s'.lost = s.lost ++ [{ a with blocked := a.blocked + 1 }] ∧
        s'.numArrivals = s.numArrivals ∧ s'.numSystem = s.numSystem ∧ s'.queue = s.queue ∧
        s'.departures = s.departures ∧ s'.log = s.log) ∧
      (atCapacity c s = false →
        s'.numBlocked = s.numBlocked ∧ s'.lost = s.lost ∧
        s'.numArrivals = s.numArrivals + 1 ∧ s'.numSystem = s.numSystem + 1 ∧
        ∃ m, s'.log = s.log ++ (a.id, 0) :: m) := by
  have hb := h.base (.inr hk)
  obtain ⟨s1, r1, h1, h2⟩ := nextEvent_spec c s (.inr hk) hb.okA hb.okD
  rw [h1] at hn
  simp only [Except.ok.injEq, Prod.mk.injEq] at hn
  obtain ⟨rfl, rfl⟩ := hn
  simp only [nextEventDescription, hk, reduceCtorEq, if_false] at hd
  cases h2 with
  | idle e1 e2 _ => rw [e1, e2] at hd; simp at hd
  | dep a hlt _ _ => rw [if_pos hlt] at hd; simp at hd
  | arr a rest hle hfin hc g hh =>
    refine ⟨a, hh, rfl, fun hcap => ?_, fun _ => ?_⟩
    · simp [atCapacity, hk, hc hk] at hcap
    · refine ⟨g.numBlocked, g.lost, g.numArrivals, g.numSystem, ?_⟩
      rcases g.served with ⟨-, -, -, -, e3, -⟩ | ⟨-, -, -, -, e3, -⟩
      · exact ⟨_, e3⟩
      · exact ⟨_, e3⟩
  | block a rest hle hfin _ hc g hh =>
    refine ⟨a, hh, rfl, fun _ => ?_, fun hcap => ?_⟩
    · exact ⟨g.numBlocked, g.lost, g.numArrivals, g.numSystem, g.queue, g.departures, g.log⟩
    · simp [atCapacity, hk, hc] at hcap

example : let s := resOps demoLoss true [.setActive, .next, .next]
    nextEventDescription demoLoss s = 1 ∧ atCapacity demoLoss s = true := by decide +kernel
example : let s := resOps demoLoss true [.setActive, .next]
    nextEventDescription demoLoss s = 1 ∧ atCapacity demoLoss s = false := by decide +kernel

/-! ## C24, C29: the outside stream -/

/-- C24: if an outside arrival is blocked and the queue is still active afterwards, the next outside
arrival has been scheduled, later than the blocked one. -/
theorem C24_blocked_keeps_stream {c : QCfg T} (hk : c.kind = .loss)
    (hstr : Strict c) (h0 : (0 : T) < ⊤) {b : Bool} {s s' : QS T} {r : Option (Agent T)}
    (h : Reach c b (StreamOk c) s) {a : Agent T} (ha : s.arrivals.head? = some (.agent a))
    (hown : Own c s a = true)
    (hn : nextEvent c s = .ok (s', r)) (hblk : s'.numBlocked = s.numBlocked + 1)
    (hact' : s'.active = true) :
    ∃ a' ∈ ownScheduled c s', a.time < a'.time ∧ a'.time < c.deactiveT := by
  have hb := h.base (.inr hk)
  have hi := h.ownInv (.inr hk) hstr h0 (fun _ _ h => h)
  obtain ⟨s1, r1, h1, h2⟩ := nextEvent_spec c s (.inr hk) hb.okA hb.okD
  rw [h1] at hn
  simp only [Except.ok.injEq, Prod.mk.injEq] at hn
  obtain ⟨rfl, rfl⟩ := hn
  cases h2 with
  | idle e1 e2 e3 => rw [e3] at hblk; omega
  | dep a hlt g _ => rw [g.numBlocked] at hblk; omega
  | arr a rest hle hfin hc g hh => rw [g.numBlocked] at hblk; omega
  | block a2 rest hle hfin _ hc g hh =>
    rw [hh] at ha
    simp only [Option.some.injEq, Slot.agent.injEq] at ha
    subst ha
    have ham : a2 ∈ agents s.arrivals := g.perm.mem_iff.mpr (by simp)
    have htime := (hi.pend a2 (ownScheduled_mem.mpr ⟨ham, hown⟩)).1
    obtain ⟨ext, e1, e2, -, -⟩ := g.ext
    rw [hact'] at e1
    generalize hν : s1.nextCt = ν at e1
    generalize hα : s1.arrCalls = n at e1
    generalize hβ : true = β at e1
    cases e1 with
    | inactive g1 => simp at hβ
    | early g1 g2 => rw [htime] at g2; exact absurd g2 (lt_irrefl _)
    | off => simp at hβ
    | new g1 g2 g3 =>
      refine ⟨_, ownScheduled_mem.mpr ⟨e2.mem_iff.mpr
        (List.mem_append_left _ (List.mem_singleton.mpr rfl)), ?_⟩, ?_, g3⟩
      · simp only [Own, decide_eq_true_eq, true_and, g.log]
        intro hx
        exact absurd (hi.idsLog _ hx rfl) (lt_irrefl _)
      · refine hstr _ _ ?_
        rw [g.time_eq]; exact hfin

/-- C24, for every history (ties included): while a queue is active, the outside arrival created last is
still scheduled, at the time drawn for it, unless the last time drawn from `arrival_f` was not before
`deactive_t` (so that no further outside arrival is due). In particular after a blocked arrival. -/
theorem C24_stream_alive {c : QCfg T} (hk : Simple c) (hf : Forward c)
    {b : Bool} {s : QS T} (h : Reach c b ClockOk s) (hact : s.active = true) :
    (∃ a ∈ agents s.arrivals, a.id = (c.edge.idx, s.oArrivals - 1) ∧ a.time = s.nextCt ∧
      s.currentT ≤ a.time) ∨ c.deactiveT ≤ s.nextCt := by
  have hall := h.aliveInv hk hf (fun _ _ h => h)
  rcases hall.1.act hact with h1 | ⟨a, h1, h2, h3, -⟩
  · exact .inr h1
  · exact .inl ⟨a, h1, h2, h3, hall.2.arr a h1⟩

/-- The second alternative occurs: `set_active` again after the stream has ended. -/
example : let c : QCfg ℕ∞ := { demo with deactiveT := 3 }
    let s := resOps c true [.setActive, .next, .next, .setActive]
    s.active = true ∧ c.deactiveT ≤ s.nextCt ∧ agents s.arrivals = [] := by decide +kernel

/-- F6: a ResourceQueue that turns away a ResourceAgent stops its own arrivals although it is active. -/
theorem C24_resource_queue_stops :
    let c : QCfg ℕ∞ := { demo with kind := .resource, servers := .fin 0, factory := .resource false false }
    let s := resOps c true [.setActive, .next]
    Reach c true anyOp s ∧ s.active = true ∧ s.numBlocked = 1 ∧ ownScheduled c s = [] :=
  ⟨reachOps _ _ _ (by decide +kernel), by decide +kernel, by decide +kernel, by decide +kernel⟩

/-- C29: a queue never has more than one scheduled arrival of its own. -/
theorem C29_one_own_arrival {c : QCfg T} (hk : Simple c) (hstr : Strict c) (h0 : (0 : T) < ⊤)
    {b : Bool} {s : QS T} (h : Reach c b (StreamOk c) s) : (ownScheduled c s).length ≤ 1 :=
  (h.ownInv hk hstr h0 (fun _ _ h => h)).one

/-- Hypotheses of C24 and C29 are met by `demo` with finite times. -/
example : Forward demo ∧ (0 : ℕ∞) < ⊤ ∧ (∀ n t, t < ⊤ → t < demo.arrivalF n t) := by
  refine ⟨⟨fun n t => le_self_add, fun n t => le_self_add⟩, by decide, fun n t ht => ?_⟩
  exact ENat.lt_add_one_iff (ne_of_lt ht) |>.mpr le_rfl

/-- A history of `demoLoss` in which an outside arrival (created here) is blocked. -/
example : let s := resOps demoLoss true [.setActive, .next, .next]
    Reach demoLoss true (StreamOk demoLoss) s ∧ s.active = true ∧ atCapacity demoLoss s = true ∧
      (s.arrivals.head?.map fun x => match x with | .agent a => Own demoLoss s a | .infty => false)
        = some true := by
  refine ⟨?_, by decide +kernel, by decide +kernel, by decide +kernel⟩
  have e : runOps demoLoss (QS.init demoLoss true) [.setActive, .next, .next]
      = .ok (resOps demoLoss true [.setActive, .next, .next]) := by decide +kernel
  refine Reach.init.ofOps _ ?_ e
  refine ⟨trivial, fun s1 h1 => ⟨?_, fun s2 h2 => ⟨?_, fun _ _ => trivial⟩⟩⟩
  · have : s1 = resOps demoLoss true [.setActive] := by
      have e1 : (QOp.setActive).run demoLoss (QS.init demoLoss true)
        = .ok (resOps demoLoss true [.setActive]) := by decide +kernel
      rw [e1] at h1; exact (Except.ok.inj h1).symm
    subst this
    simp only [StreamOk]
    decide +kernel
  · have e1 : (QOp.setActive).run demoLoss (QS.init demoLoss true)
        = .ok (resOps demoLoss true [.setActive]) := by decide +kernel
    rw [e1] at h1
    have e2 : QOp.next.run demoLoss (resOps demoLoss true [.setActive])
        = .ok (resOps demoLoss true [.setActive, .next]) := by decide +kernel
    rw [← Except.ok.inj h1, e2] at h2
    rw [← Except.ok.inj h2]
    simp only [StreamOk]
    decide +kernel

end Verif.QueueSpec
