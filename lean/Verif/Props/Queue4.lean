import Verif.Props.Queue1
import Verif.QueueFetch
import Verif.QueueData
import Mathlib.Data.Prod.Lex
import Mathlib.Algebra.Order.Monoid.Unbundled.Basic
import Mathlib.Order.Defs.LinearOrder

/-! # Properties C25-C28 and C30 -/

set_option linter.unusedSectionVars false

namespace Verif.QueueSpec

variable {T : Type*} [LinearOrder T] [OrderTop T] [Zero T]

/-! ## C25: NullQueue -/

/-- The agents handed over in a list of operations. -/
def handed : List (QOp T) → List (Agent T)
  | [] => []
  | .handover a :: ops => a :: handed ops
  | _ :: ops => handed ops

/-- What a NullQueue never has. -/
structure Nothing (c : QCfg T) (s : QS T) : Prop where
  desc : nextEventDescription c s = 0
  time : s.time = ⊤
  queued : numberQueued c s = 0
  cap : atCapacity c s = false
  total : s.numTotal = 0
  system : s.numSystem = 0
  empty : agents s.arrivals = [] ∧ s.queue = [] ∧ agents s.departures = []
  next : nextEvent c s = .ok (s, none)

/-- The part of the state of a NullQueue that never changes. -/
def NullSt (s : QS T) : Prop :=
  s.time = ⊤ ∧ s.numTotal = 0 ∧ s.numSystem = 0 ∧ s.arrivals = [.infty] ∧ s.queue = [] ∧
    s.departures = [.infty]

theorem null_run {c : QCfg T} (hk : c.kind = .null) (s : QS T) (op : QOp T) (h : NullSt s) :
    ∃ s', op.run c s = .ok s' ∧ NullSt s' ∧
      (s.collectData = true → NoSwitch op → s'.collectData = true ∧
        ∀ x, s'.data.rows x = s.data.rows x ++
          ((handed [op]).filter (·.id = x)).map fun a => ⟨a.time, 0, 0, 0, 0⟩) := by
  cases op with
  | next => exact ⟨s, by simp [QOp.run, nextEvent, hk], h, fun hc _ => ⟨hc, by simp [handed]⟩⟩
  | setActive =>
    by_cases ha : s.active = true
    · exact ⟨s, by simp [QOp.run, setActive, ha], h, fun hc _ => ⟨hc, by simp [handed]⟩⟩
    · refine ⟨{ s with active := true }, by simp [QOp.run, setActive, ha, addArrival, hk], h, fun hc _ => ⟨hc, ?_⟩⟩
      simp [handed]
  | setInactive => exact ⟨_, rfl, h, fun hc _ => ⟨hc, by simp [handed, setInactive]⟩⟩
  | setServers n => exact ⟨s, by simp [QOp.run, setNumServers, hk], h, fun hc _ => ⟨hc, by simp [handed]⟩⟩
  | delay t kb =>
    have e : bumpHead s kb = s := by unfold bumpHead; rw [h.2.2.2.2.2]
    exact ⟨s, by simp [QOp.run, delayService, hk, e], h, fun hc _ => ⟨hc, by simp [handed]⟩⟩
  | collect b => exact ⟨_, rfl, h, fun _ hn => absurd rfl (hn.1 b)⟩
  | note => exact ⟨s, by simp [QOp.run, atCapacity, hk], h, fun hc _ => ⟨hc, by simp [handed]⟩⟩
  | clearData => exact ⟨_, rfl, h, fun _ hn => absurd rfl hn.2⟩
  | clear => exact ⟨s, by simp [QOp.run, clear, hk], h, fun hc _ => ⟨hc, by simp [handed]⟩⟩
  | handover a =>
    by_cases hc : s.collectData = true
    · refine ⟨{ s with data := s.data.append a.id ⟨a.time, 0, 0, 0, 0⟩ }, ?_, h, fun _ _ => ⟨hc, ?_⟩⟩
      · simp [QOp.run, addArrivalAgent, hk, hc]
      · intro x
        rw [Data.rows_append]
        by_cases hx : a.id = x
        · simp [handed, hx]
        · simp [handed, hx, Ne.symm hx]
    · refine ⟨s, by simp [QOp.run, addArrivalAgent, hk, hc], h, fun h' => absurd h' hc⟩

theorem NullSt.nothing {c : QCfg T} (hk : c.kind = .null) {s : QS T} (h : NullSt s) : Nothing c s := by
  obtain ⟨h1, h2, h3, h4, h5, h6⟩ := h
  constructor
  · simp [nextEventDescription, hk]
  · exact h1
  · simp [numberQueued, hk]
  · simp [atCapacity, hk]
  · exact h2
  · exact h3
  · rw [h4, h5, h6]; simp
  · simp [nextEvent, hk]

/-- C25: whatever is done with a NullQueue, no exception is raised, it never has an event, never holds
an agent, is never at capacity and counts 0 agents. -/
theorem C25_null_queue {c : QCfg T} (hk : c.kind = .null) (b : Bool) (ops : List (QOp T)) :
    ∃ s, runOps c (QS.init c b) ops = .ok s ∧ Nothing c s := by
  have : ∀ s : QS T, NullSt s → ∃ s', runOps c s ops = .ok s' ∧ NullSt s' := by
    induction ops with
    | nil => exact fun s h => ⟨s, rfl, h⟩
    | cons op ops ih =>
      intro s h
      obtain ⟨s1, h1, h2, -⟩ := null_run hk s op h
      simp only [runOps, h1]
      exact ih s1 h2
  obtain ⟨s, h1, h2⟩ := this (QS.init c b) ⟨rfl, rfl, rfl, rfl, rfl, rfl⟩
  exact ⟨s, h1, h2.nothing hk⟩

/-- C25, the data: with `collect_data=True` (not switched) the rows recorded for an agent are exactly one row
`[arrival time, 0, 0, 0, 0]` for each time it was sent here, in order. -/
theorem C25_null_queue_rows {c : QCfg T} (hk : c.kind = .null) (ops : List (QOp T))
    (hc : ∀ op ∈ ops, NoSwitch op) :
    ∃ s, runOps c (QS.init c true) ops = .ok s ∧
      ∀ x, s.data.rows x = ((handed ops).filter (·.id = x)).map fun a => ⟨a.time, 0, 0, 0, 0⟩ := by
  have : ∀ s : QS T, NullSt s → s.collectData = true →
      ∃ s', runOps c s ops = .ok s' ∧ ∀ x, s'.data.rows x = s.data.rows x ++
        ((handed ops).filter (·.id = x)).map fun a => ⟨a.time, 0, 0, 0, 0⟩ := by
    induction ops with
    | nil => exact fun s h _ => ⟨s, rfl, by simp [handed]⟩
    | cons op ops ih =>
      intro s h hcol
      obtain ⟨s1, h1, h2, h3⟩ := null_run hk s op h
      obtain ⟨h4, h5⟩ := h3 hcol (hc op (by simp))
      obtain ⟨s2, g1, g2⟩ := ih (fun o ho => hc o (by simp [ho])) s1 h2 h4
      refine ⟨s2, by simp only [runOps, h1, g1], fun x => ?_⟩
      rw [g2, h5, List.append_assoc]
      congr 1
      rw [← List.map_append, ← List.filter_append]
      congr 2
      cases op <;> rfl
  obtain ⟨s, h1, h2⟩ := this (QS.init c true) ⟨rfl, rfl, rfl, rfl, rfl, rfl⟩ rfl
  exact ⟨s, h1, by simpa [QS.init, Data.rows] using h2⟩

example : let c : QCfg ℕ∞ := { demo with kind := .null }
    (resOps c true [.handover ⟨(3, 0), 5, 0, .plain⟩, .handover ⟨(3, 0), 9, 0, .plain⟩]).data
      = [((3, 0), [⟨5, 0, 0, 0, 0⟩, ⟨9, 0, 0, 0, 0⟩])] := by decide +kernel

/-! ## C26, C27: recorded rows -/

/-- C26, the times: with collection on throughout, every row of an agent that is neither waiting nor in
service has `arrival <= start <= departure` (or is the row of an arrival blocked at a LossQueue); agents
still here have one open row, their last one. -/
theorem C26_rows_consistent {c : QCfg T} (hk : Simple c) (hf : Forward c) {s : QS T}
    (h : Reach c true (DataOk c) s) (x : Nat × Nat) :
    (x ∉ s.queue.map (·.id) → x ∉ (inService s).map (·.id) → ∀ r ∈ s.data.rows x, Final c r) ∧
    (x ∈ s.queue.map (·.id) → ∃ R r, s.data.rows x = R ++ [r] ∧ (∀ q ∈ R, Final c q) ∧
      r.arr ≤ s.currentT) ∧
    (x ∈ (inService s).map (·.id) → ∃ R r, s.data.rows x = R ++ [r] ∧ (∀ q ∈ R, Final c q) ∧
      r.arr ≤ r.start ∧ r.start ≤ s.currentT) := by
  have hi := h.dataInv hk hf (fun _ _ h => h)
  exact ⟨hi.rest x, hi.wait x, hi.serv x⟩

/-- C26, the last column: an admitted arrival's row holds its arrival time and the number of agents in the
system including itself; a blocked arrival's row the number in the system without it. -/
theorem C26_arrival_row {c : QCfg T} (hk : Simple c) {b : Bool} {s s' : QS T} {r : Option (Agent T)}
    (h : Reach c b anyOp s) (hcol : s.collectData = true) {a : Agent T}
    (hh : s.arrivals.head? = some (.agent a))
    (hd : nextEventDescription c s = 1) (hn : nextEvent c s = .ok (s', r)) :
    ∃ row : Row T, s'.data.rows a.id = s.data.rows a.id ++ [row] ∧ row.arr = a.time ∧
      (s'.numArrivals = s.numArrivals + 1 → row.nsys = s.numSystem + 1 ∧ row.nsys = s'.numSystem ∧
        row.nq = s'.queue.length) ∧
      (s'.numBlocked = s.numBlocked + 1 → row.nsys = s.numSystem ∧ row.nq = s.queue.length) := by
  have hb := h.base hk
  obtain ⟨s1, r1, h1, h2⟩ := nextEvent_spec c s hk hb.okA hb.okD
  rw [h1] at hn
  simp only [Except.ok.injEq, Prod.mk.injEq] at hn
  obtain ⟨rfl, rfl⟩ := hn
  simp only [nextEventDescription, hk.ne_null, if_false] at hd
  cases h2 with
  | idle e1 e2 _ => rw [e1, e2] at hd; simp at hd
  | dep a hlt _ _ => rw [if_pos hlt] at hd; simp at hd
  | arr a2 rest hle hfin hc g hh2 =>
    rw [hh2] at hh
    simp only [Option.some.injEq, Slot.agent.injEq] at hh
    subst hh
    rcases g.served with ⟨-, e1, -, -, -, e4⟩ | ⟨-, e1, -, -, -, e4⟩
    · rw [if_pos hcol] at e4
      refine ⟨⟨a2.time, a2.time, 0, s.queue.length, s.numSystem + 1⟩, ?_, rfl, ?_, ?_⟩
      · rw [e4, Data.rows_modify, Data.rows_append]
        simp [modLast_snoc]
      · intro _; rw [g.numSystem, e1]; simp
      · rw [g.numBlocked]; omega
    · rw [if_pos hcol] at e4
      refine ⟨⟨a2.time, 0, 0, s.queue.length + 1, s.numSystem + 1⟩, ?_, rfl, ?_, ?_⟩
      · rw [e4, Data.rows_append]; simp
      · intro _; rw [g.numSystem, e1]; simp
      · rw [g.numBlocked]; omega
  | block a2 rest hle hfin _ hc g hh2 =>
    rw [hh2] at hh
    simp only [Option.some.injEq, Slot.agent.injEq] at hh
    subst hh
    have e4 := g.data
    rw [if_pos hcol] at e4
    refine ⟨⟨a2.time, 0, 0, s.queue.length, s.numSystem⟩, ?_, rfl, ?_, ?_⟩
    · rw [e4, Data.rows_append]; simp
    · rw [g.numArrivals]; omega
    · intro _; exact ⟨rfl, rfl⟩

example : (resOps demo true demoOps).data =
    [((7, 0), [⟨1, 1, 4, 0, 1⟩]), ((7, 1), [⟨2, 4, 0, 1, 2⟩]), ((7, 2), [⟨3, 0, 0, 2, 3⟩]),
     ((7, 3), [⟨4, 0, 0, 3, 4⟩]), ((7, 4), [⟨5, 0, 0, 3, 4⟩])] := by decide +kernel

/-- The hypotheses of C26 are met by the history `demoOps`. -/
example : Reach demo true (DataOk demo) (resOps demo true demoOps) := by
  refine Reach.init.ofOps demoOps ?_ (by decide +kernel)
  have : ∀ (l : List (QOp ℕ∞)) (s : QS ℕ∞), (∀ op ∈ l, op = .setActive ∨ op = .next) →
      okOps demo (DataOk demo) s l := by
    intro l
    induction l with
    | nil => intros; trivial
    | cons op l ih =>
      intro s h
      refine ⟨?_, fun s' _ => ih s' fun o ho => h o (by simp [ho])⟩
      rcases h op (by simp) with rfl | rfl <;> trivial
  exact this _ _ (by simp [demoOps])

/-- C27: with collection on throughout, there are exactly as many rows as arrivals admitted or turned away. -/
theorem C27_rows_count {c : QCfg T} (hk : Simple c) {s : QS T}
    (h : Reach c true (fun _ op => NoSwitch op) s) :
    (allRows s.data).length = s.numArrivals + s.lost.length := by
  rw [← (h.rowsInv hk (fun _ _ h => h)).count]
  simp [allRows, Data.count, List.length_flatMap]

/-- C27, in terms of `num_blocked`, for a queue outside networks (where agents blocked in front of the queue
are counted in `num_blocked` too). -/
theorem C27_rows_count_alone {c : QCfg T} (hk : Simple c) {s : QS T}
    (h : Reach c true (fun _ op => NoSwitch op ∧ op ≠ .note) s) :
    (allRows s.data).length = s.numArrivals + s.numBlocked := by
  have h1 : s.numBlocked = s.lost.length ∧ (c.kind = .server → s.numBlocked = 0) := by
    refine h.induct (P := fun s => s.numBlocked = s.lost.length ∧ (c.kind = .server → s.numBlocked = 0)) hk
      ⟨rfl, fun _ => rfl⟩ ?_
    intro s s' op hb hi hx ho
    cases ho with
    | ev s' r _ h1 =>
      cases h1 with
      | idle _ _ h2 => rw [h2]; exact hi
      | dep a _ h2 _ => rw [h2.numBlocked, h2.lost]; exact hi
      | arr a rest _ _ _ h2 _ => rw [h2.numBlocked, h2.lost]; exact hi
      | block a rest _ _ hl _ h2 _ =>
        rw [h2.numBlocked, h2.lost]
        exact ⟨by simp [hi.1], fun hs => by rw [hs] at hl; simp at hl⟩
    | already => exact hi
    | act => exact hi
    | inact => exact hi
    | srv n s' r h1 => cases h1 <;> exact hi
    | delay t kb s' h1 => cases h1 <;> exact hi
    | collect => exact hi
    | noteFull => exact absurd rfl hx.2
    | noteOpen => exact hi
    | clearData => exact hi
    | clear =>
      rw [clear_simple c s hk]
      refine ⟨?_, fun hs => by simp only [hs, if_true]; exact hi.2 hs⟩
      by_cases hs : c.kind = .server
      · simp only [hs, if_true, hi.2 hs]; rfl
      · simp only [hs, if_false]; rfl
    | handover => exact hi
  rw [h1.1, ← (h.rowsInv hk (fun _ _ h => h.1)).count]
  simp [allRows, Data.count, List.length_flatMap]

example : (allRows (resOps demoLoss true demoOps).data).length = 5 ∧
    (resOps demoLoss true demoOps).numBlocked = 2 := by decide +kernel

/-! ## C28: fetch_data -/

/-- C28: `fetch_data` returns exactly the recorded rows, each as often as recorded, with the edge index
appended, sorted by arrival time. -/
theorem C28_fetch_data (c : QCfg T) (s : QS T) :
    (fetchData c s).Perm ((allRows s.data).map fun r => ⟨r, c.edge.idx⟩) ∧
    (fetchData c s).Pairwise (fun x y => x.row.arr ≤ y.row.arr) := by
  refine ⟨List.perm_insertionSort _ _, ?_⟩
  refine (List.pairwise_insertionSort FRow.le _).imp fun {x y} h => ?_
  rcases h with h | h
  · exact h.le
  · exact h.1.le

/-- C28: the result does not depend on the sorting algorithm `np.sort` uses. -/
theorem C28_fetch_data_unique (c : QCfg T) (s : QS T) (l : List (FRow T))
    (h1 : l.Perm ((allRows s.data).map fun r => ⟨r, c.edge.idx⟩)) (h2 : l.Pairwise FRow.le) :
    l = fetchData c s :=
  (h1.trans (List.perm_insertionSort _ _).symm).eq_of_pairwise
    (fun x y _ _ => Std.Antisymm.antisymm x y) h2
    (List.pairwise_insertionSort FRow.le _)

/-- C28: the rows of an agent appear as often as they are recorded for it: the recorded rows are the
concatenation over the agents. -/
theorem C28_rows_of_agents (c : QCfg T) (s : QS T) (x : FRow T) :
    x ∈ fetchData c s ↔ x.qid = c.edge.idx ∧ ∃ p ∈ s.data, x.row ∈ p.2 := by
  rw [(C28_fetch_data c s).1.mem_iff]
  obtain ⟨r, q⟩ := x
  simp only [List.mem_map, allRows, List.mem_flatMap, FRow.mk.injEq]
  constructor
  · rintro ⟨r', ⟨p, h1, h2⟩, rfl, rfl⟩; exact ⟨rfl, p, h1, h2⟩
  · rintro ⟨rfl, p, h1, h2⟩; exact ⟨r, ⟨p, h1, h2⟩, rfl, rfl⟩

example : (fetchData demo (resOps demo true demoOps)).map (fun x => (x.row.arr, x.qid))
    = [(1, 7), (2, 7), (3, 7), (4, 7), (5, 7)] := by decide +kernel

/-! ## C30: poisson_random_measure -/

section Thinning

variable {R : Type*} [LinearOrder R] [Add R] [Mul R] [Div R] [One R]

/-- The n-th candidate: `t` plus the first `n + 1` exponential draws. -/
def candidate (rateMax : R) (expo : Nat → R → R) (t : R) : Nat → R
  | 0 => t + expo 0 (1 / rateMax)
  | n + 1 => candidate rateMax expo t n + expo (n + 1) (1 / rateMax)

/-- The thinning test accepts the n-th candidate. -/
def accepted (rateMax : R) (rate : R → R) (expo : Nat → R → R) (unif : Nat → R) (t : R) (n : Nat) : Prop :=
  rateMax * unif n ≤ rate (candidate rateMax expo t n)

theorem thinLoop_iff (rateMax : R) (rate : R → R) (expo : Nat → R → R) (unif : Nat → R) (t x : R)
    (fuel i : Nat) :
    thinLoop rateMax rate expo unif fuel i (candidate rateMax expo t i) = some x ↔
      ∃ n, i ≤ n ∧ n < i + fuel ∧ x = candidate rateMax expo t n ∧
        accepted rateMax rate expo unif t n ∧
        ∀ m, i ≤ m → m < n → ¬ accepted rateMax rate expo unif t m := by
  induction fuel generalizing i with
  | zero =>
    simp only [thinLoop, reduceCtorEq, false_iff, not_exists]
    rintro n ⟨h1, h2, -⟩; omega
  | succ fuel ih =>
    simp only [thinLoop]
    by_cases h : rateMax * unif i > rate (candidate rateMax expo t i)
    · rw [if_pos h]
      have := ih (i + 1)
      simp only [candidate] at this
      rw [this]
      have hna : ¬ accepted rateMax rate expo unif t i := not_le.mpr h
      constructor
      · rintro ⟨n, h1, h2, h3, h4, h5⟩
        refine ⟨n, by omega, by omega, h3, h4, fun m hm hm' => ?_⟩
        rcases Nat.eq_or_lt_of_le hm with rfl | hm
        · exact hna
        · exact h5 m hm hm'
      · rintro ⟨n, h1, h2, h3, h4, h5⟩
        have : i ≠ n := by rintro rfl; exact hna h4
        exact ⟨n, by omega, by omega, h3, h4, fun m hm hm' => h5 m (by omega) hm'⟩
    · rw [if_neg h]
      have ha : accepted rateMax rate expo unif t i := not_lt.mp h
      constructor
      · intro hx
        simp only [Option.some.injEq] at hx
        exact ⟨i, le_rfl, by omega, hx.symm, ha, fun m h1 h2 => absurd h1 (by omega)⟩
      · rintro ⟨n, h1, h2, h3, h4, h5⟩
        rcases Nat.eq_or_lt_of_le h1 with rfl | h1
        · rw [h3]
        · exact absurd ha (h5 i le_rfl h1)

/-- C30: the value returned is the first candidate accepted by the thinning test (and some value is
returned whenever a candidate is accepted at all: take `fuel` large). -/
theorem C30_first_accepted (rateMax : R) (rate : R → R) (expo : Nat → R → R) (unif : Nat → R) (t x : R) :
    (∃ fuel, poissonRandomMeasure rateMax rate expo unif fuel t = some x) ↔
      ∃ n, x = candidate rateMax expo t n ∧ accepted rateMax rate expo unif t n ∧
        ∀ m < n, ¬ accepted rateMax rate expo unif t m := by
  have e : ∀ fuel, poissonRandomMeasure rateMax rate expo unif fuel t
      = thinLoop rateMax rate expo unif fuel 0 (candidate rateMax expo t 0) := fun _ => rfl
  simp only [e, thinLoop_iff]
  constructor
  · rintro ⟨fuel, n, -, -, h3, h4, h5⟩
    exact ⟨n, h3, h4, fun m hm => h5 m (Nat.zero_le _) hm⟩
  · rintro ⟨n, h3, h4, h5⟩
    exact ⟨n + 1, n, Nat.zero_le _, by omega, h3, h4, fun m _ hm => h5 m hm⟩

/-- C30: the loop ends exactly if some candidate is accepted. -/
theorem C30_terminates_iff (rateMax : R) (rate : R → R) (expo : Nat → R → R) (unif : Nat → R) (t : R) :
    (∃ fuel x, poissonRandomMeasure rateMax rate expo unif fuel t = some x) ↔
      ∃ n, accepted rateMax rate expo unif t n := by
  rw [exists_comm]
  simp only [C30_first_accepted]
  classical
  constructor
  · rintro ⟨x, n, -, h, -⟩; exact ⟨n, h⟩
  · intro h
    exact ⟨_, Nat.find h, rfl, Nat.find_spec h, fun m hm => Nat.find_min h hm⟩

/-- C30: the value returned is not before `t` if adding a draw never decreases a time. -/
theorem C30_not_before (rateMax : R) (rate : R → R) (expo : Nat → R → R) (unif : Nat → R) (t x : R)
    (fuel : Nat) (hpos : ∀ n y, y ≤ y + expo n (1 / rateMax))
    (h : poissonRandomMeasure rateMax rate expo unif fuel t = some x) : t ≤ x := by
  obtain ⟨n, rfl, -⟩ := (C30_first_accepted rateMax rate expo unif t x).mp ⟨fuel, h⟩
  clear h
  induction n with
  | zero => exact hpos 0 t
  | succ k ih => exact ih.trans (hpos _ _)

/-- A rejected first candidate, an accepted second one. -/
example : poissonRandomMeasure (T := Nat) 3 (fun t => if t < 5 then 1 else 3) (fun _ _ => 2) (fun _ => 1) 9 1
    = some 5 := by decide +kernel

end Thinning

end Verif.QueueSpec
