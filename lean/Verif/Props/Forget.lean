import Verif.Forget
import Verif.Props.NetWit

/-!
# C116: collecting data does not change the simulation

For all four queue classes, one queue and networks.
-/

set_option linter.unusedSectionVars false

namespace Verif

variable {T R : Type*} [LinearOrder T] [OrderTop T] [Zero T] [LinearOrder R] [Add R]

/-- Two queues that differ at most in `collect_data` and `data`. -/
def QS.Alike (s s' : QS T) : Prop := s' = { s with collectData := s'.collectData, data := s'.data }

/-- Two networks that differ at most in `collect_data` and `data` of their queues. -/
def Net.Alike (n n' : Net T R) : Prop :=
  (∀ k, (n.qs k).Alike (n'.qs k)) ∧ n' = { n with qs := n'.qs }

/-- Perform calls one after the other; an exception ends the program. -/
def runCalls (N : NetCfg T R) : List (NetOp R) → Net T R → Except DestErr (Net T R)
  | [], n => .ok n
  | op :: ops, n => match op.run N n with
    | .error e => .error e
    | .ok n => runCalls N ops n

/-- The calls of a program without `start_collecting_data`, `stop_collecting_data` and `clear_data`. -/
def otherCalls : List (NetOp R) → List (NetOp R)
  | [] => []
  | .collect _ _ :: ops => otherCalls ops
  | .clearData _ :: ops => otherCalls ops
  | op :: ops => op :: otherCalls ops

theorem QS.alike_iff {s s' : QS T} : s.Alike s' ↔ s.forget = s'.forget := by
  constructor
  · intro h
    rw [QS.Alike] at h
    rw [h]; rfl
  · intro h
    obtain ⟨⟩ := s
    obtain ⟨⟩ := s'
    simp only [QS.forget, QS.mk.injEq] at h
    simp only [QS.Alike, QS.mk.injEq]
    simp only [h, and_self]

theorem Net.alike_iff {n n' : Net T R} : n.Alike n' ↔ n.forget = n'.forget := by
  constructor
  · rintro ⟨h, e⟩
    rw [e]
    simp only [Net.forget, Net.mk.injEq, and_self, and_true]
    funext k
    exact QS.alike_iff.1 (h k)
  · intro h
    refine ⟨fun k => QS.alike_iff.2 (congrFun (congrArg Net.qs h) k), ?_⟩
    obtain ⟨⟩ := n
    obtain ⟨⟩ := n'
    simp only [Net.forget, Net.mk.injEq] at h
    simp only [Net.mk.injEq]
    simp only [h, and_self]

/-- What `runCalls` returns, up to the data. -/
theorem nfgt_runCalls (N : NetCfg T R) (ops : List (NetOp R)) (n n' : Net T R) (h : n.forget = n'.forget) :
    nfgt (runCalls N ops n) = nfgt (runCalls N (otherCalls ops) n') := by
  have skip : ∀ (op : NetOp R) (ops : List (NetOp R)) (n : Net T R), op.onData = true →
      ∃ m : Net T R, m.forget = n.forget ∧ runCalls N (op :: ops) n = runCalls N ops m := by
    intro op ops n hop
    obtain ⟨m, e, hm⟩ := NetOp.run_onData (N := N) (n := n) hop
    exact ⟨m, hm, by simp only [runCalls, e]⟩
  have keep : ∀ (op : NetOp R) (ops : List (NetOp R)) (n n' : Net T R), n.forget = n'.forget →
      (∀ n n' : Net T R, n.forget = n'.forget → nfgt (runCalls N ops n) = nfgt (runCalls N (otherCalls ops) n')) →
      nfgt (runCalls N (op :: ops) n) = nfgt (runCalls N (op :: otherCalls ops) n') := by
    intro op ops n n' h ih
    have e := NetOp.run_forget N n op
    rw [h, NetOp.run_forget N n' op] at e
    simp only [runCalls]
    cases h1 : op.run N n with
    | error e1 =>
      cases h2 : op.run N n' with
      | error e2 => rw [h1, h2] at e; simpa [nfgt] using e.symm
      | ok m => rw [h1, h2] at e; simp [nfgt] at e
    | ok m =>
      cases h2 : op.run N n' with
      | error e2 => rw [h1, h2] at e; simp [nfgt] at e
      | ok m' =>
        rw [h1, h2] at e
        simp only [nfgt, Except.ok.injEq] at e
        exact ih m m' e.symm
  induction ops generalizing n n' with
  | nil => simp only [runCalls, otherCalls, nfgt, h]
  | cons op ops ih =>
    cases op with
    | collect b ks =>
      obtain ⟨m, hm, e⟩ := skip (.collect b ks) ops n rfl
      rw [e]
      exact ih m n' (hm.trans h)
    | clearData ks =>
      obtain ⟨m, hm, e⟩ := skip (.clearData ks) ops n rfl
      rw [e]
      exact ih m n' (hm.trans h)
    | step => exact keep _ _ _ _ h ih
    | initialise pick a => exact keep _ _ _ _ h ih
    | clear => exact keep _ _ _ _ h ih
    | setProbs p => exact keep _ _ _ _ h ih
    | setBlocking bas => exact keep _ _ _ _ h ih
    | copy => exact keep _ _ _ _ h ih
    | setServers k m => exact keep _ _ _ _ h ih
    | setInactive k => exact keep _ _ _ _ h ih

theorem nfgt_eq {x y : Except DestErr (Net T R)} (h : nfgt x = nfgt y) :
    (∃ e, x = .error e ∧ y = .error e) ∨ ∃ n n', x = .ok n ∧ y = .ok n' ∧ n.Alike n' := by
  rcases x with e | n <;> rcases y with e' | n'
  · simp only [nfgt, Except.error.injEq] at h
    exact .inl ⟨e, rfl, by rw [h]⟩
  · simp [nfgt] at h
  · simp [nfgt] at h
  · simp only [nfgt, Except.ok.injEq] at h
    exact .inr ⟨n, n', rfl, rfl, Net.alike_iff.2 h⟩

/-- **C116.** Take a network with queues of any of the four classes, any routing, and two programs that make the
same calls in the same order except for `start_collecting_data`, `stop_collecting_data` and `clear_data`, which may
come anywhere and differ. Start them with networks that differ at most in `data` and `collect_data` of the queues.
Then both raise the same exception, or both end and the networks again differ at most there: clocks, agents, queues,
the scheduler, all counters and the numbers of random draws are the same. -/
theorem C116_network (N : NetCfg T R) (ops ops' : List (NetOp R)) (n n' : Net T R) (h : n.Alike n')
    (same : otherCalls ops = otherCalls ops') :
    (∃ e, runCalls N ops n = .error e ∧ runCalls N ops' n' = .error e) ∨
    ∃ m m', runCalls N ops n = .ok m ∧ runCalls N ops' n' = .ok m' ∧ m.Alike m' := by
  refine nfgt_eq ?_
  rw [nfgt_runCalls N ops n n' (Net.alike_iff.1 h), same, nfgt_runCalls N ops' n' n' rfl]

/-- **C116.** In particular for newly constructed networks whose queues have different parameters
`collect_data`. -/
theorem C116_new (N : NetCfg T R) (ops ops' : List (NetOp R)) (b b' : Nat → Bool) (bas : Bool)
    (probs : Nat → List R) (same : otherCalls ops = otherCalls ops') :
    (∃ e, runCalls N ops (Net.init N b bas probs) = .error e ∧
      runCalls N ops' (Net.init N b' bas probs) = .error e) ∨
    ∃ m m', runCalls N ops (Net.init N b bas probs) = .ok m ∧
      runCalls N ops' (Net.init N b' bas probs) = .ok m' ∧ m.Alike m' :=
  C116_network N ops ops' _ _ (Net.alike_iff.2 rfl) same

/-- **C116.** The same for `simulate(t=d)`: it ends for the one network exactly when it ends for the other, after
the same number of events. -/
theorem C116_time [Add T] (N : NetCfg T R) (d : T) (fuel : Nat) (n n' : Net T R) (h : n.Alike n') :
    (n.simulateT N d fuel = none ∧ n'.simulateT N d fuel = none) ∨
    (∃ e, n.simulateT N d fuel = some (.error e) ∧ n'.simulateT N d fuel = some (.error e)) ∨
    ∃ m m', n.simulateT N d fuel = some (.ok m) ∧ n'.simulateT N d fuel = some (.ok m') ∧ m.Alike m' := by
  have gen : ∀ (u : T) (fuel : Nat) (n : Net T R),
      n.forget.stepsUntil N u fuel = (n.stepsUntil N u fuel).map nfgt := by
    intro u fuel
    induction fuel with
    | zero =>
      intro n
      simp only [Net.stepsUntil]
      rw [apply_ite (Option.map nfgt)]
      rfl
    | succ fuel ih =>
      intro n
      simp only [Net.stepsUntil]
      rw [apply_ite (Option.map nfgt), Net.step_forget]
      refine if_congr Iff.rfl ?_ rfl
      cases n.step N with
      | error e => rfl
      | ok m => exact ih m
  have all : ∀ n : Net T R, n.forget.simulateT N d fuel = (n.simulateT N d fuel).map nfgt := by
    intro n
    simp only [Net.simulateT]
    rw [apply_ite (Option.map nfgt), ← gen]
    rfl
  have e := all n
  rw [Net.alike_iff.1 h, all n'] at e
  rcases h1 : n.simulateT N d fuel with _ | x <;> rcases h2 : n'.simulateT N d fuel with _ | y
  · exact .inl ⟨rfl, rfl⟩
  · rw [h1, h2] at e; simp at e
  · rw [h1, h2] at e; simp at e
  · rw [h1, h2] at e
    simp only [Option.map_some, Option.some.injEq] at e
    rcases nfgt_eq e.symm with ⟨err, rfl, rfl⟩ | ⟨m, m', rfl, rfl, h⟩
    · exact .inr (.inl ⟨err, rfl, rfl⟩)
    · exact .inr (.inr ⟨m, m', rfl, rfl, h⟩)

/-- **C116.** What one sees of a queue without looking at its data is the same. -/
theorem C116_seen {s s' : QS T} (c : QCfg T) (h : s.Alike s') :
    s'.time = s.time ∧ s'.currentT = s.currentT ∧ s'.active = s.active ∧
    s'.numServers = s.numServers ∧ s'.numArrivals = s.numArrivals ∧ s'.oArrivals = s.oArrivals ∧
    s'.numDepartures = s.numDepartures ∧ s'.numSystem = s.numSystem ∧ s'.numTotal = s.numTotal ∧
    s'.numBlocked = s.numBlocked ∧ s'.lost = s.lost ∧ s'.queue = s.queue ∧ s'.arrivals = s.arrivals ∧
    s'.departures = s.departures ∧ numberQueued c s' = numberQueued c s ∧ atCapacity c s' = atCapacity c s ∧
    nextEventDescription c s' = nextEventDescription c s := by
  rw [QS.Alike] at h
  rw [h]
  exact ⟨rfl, rfl, rfl, rfl, rfl, rfl, rfl, rfl, rfl, rfl, rfl, rfl, rfl, rfl, rfl, rfl, rfl⟩

/-- **C116.** The same for a queue by itself: calls of `next_event`, `set_active`, `set_inactive`, `set_num_servers`,
`delay_service`, `clear`, agents handed over, and switches and `clear_data` (`QOp`). -/
theorem C116_queue (c : QCfg T) (op : QOp T) {s s' : QS T} (h : s.Alike s') :
    (∃ e, op.run c s = .error e ∧ op.run c s' = .error e) ∨
    ∃ q q', op.run c s = .ok q ∧ op.run c s' = .ok q' ∧ q.Alike q' := by
  have gen : ∀ s : QS T, fgt (op.run c s.forget) = fgt (op.run c s) := by
    have key : ∀ x : Except Err (QS T), fgt (fgt x) = fgt x := by rintro (e | n) <;> rfl
    intro s
    cases op with
    | next =>
      simp only [QOp.run, nextEvent_forget]
      rcases nextEvent c s with e | ⟨q, r⟩ <;> rfl
    | setActive => simp only [QOp.run, setActive_forget, key]
    | setInactive => rfl
    | setServers n => simp only [QOp.run, setNumServers_forget]; rfl
    | delay t k => simp only [QOp.run, bumpHead_forget, delayService_forget, key]
    | collect b => rfl
    | note =>
      simp only [QOp.run, fgt, Except.ok.injEq, apply_ite QS.forget]
      rfl
    | clearData => rfl
    | clear => simp only [QOp.run, clear_forget]; rfl
    | handover a => simp only [QOp.run, addArrivalAgent_forget, key]
  have e := gen s
  rw [QS.alike_iff.1 h, gen s'] at e
  rcases h1 : op.run c s with e1 | q <;> rcases h2 : op.run c s' with e2 | q'
  · rw [h1, h2] at e
    simp only [fgt, Except.error.injEq] at e
    exact .inl ⟨e1, rfl, by rw [e]⟩
  · rw [h1, h2] at e; simp [fgt] at e
  · rw [h1, h2] at e; simp [fgt] at e
  · rw [h1, h2] at e
    simp only [fgt, Except.ok.injEq] at e
    exact .inr ⟨q, q', rfl, rfl, QS.alike_iff.2 e.symm⟩

/-- The data of queue 0. -/
def dataOf (x : Except DestErr (Net T R)) : Option (Data T) :=
  match x with
  | .error _ => none
  | .ok n => some (n.qs 0).data

/-- Data collected throughout. -/
abbrev demoOn : List (NetOp Nat) := demoRun 20

/-- Collection switched on after six events and off after ten; the data cleared after thirteen. -/
abbrev demoOff : List (NetOp Nat) :=
  demoRun 6 ++ [.collect true [0, 1, 2]] ++ List.replicate 4 .step ++ [.collect false [0, 2]] ++
    List.replicate 3 .step ++ [.clearData [1]] ++ List.replicate 7 .step

theorem demoOn_data : dataOf (runCalls demoNet demoOn (Net.init demoNet (fun _ => true) true demoProbs)) =
    some [((0, 0), [⟨2, 2, 3, 0, 1⟩]), ((0, 1), [⟨4, 4, 11, 0, 1⟩]), ((0, 2), [⟨6, 11, 12, 1, 2⟩]),
      ((0, 3), [⟨8, 12, 20, 2, 3⟩]), ((0, 4), [⟨10, 20, 0, 3, 4⟩])] := by decide +kernel

theorem demoOff_data : dataOf (runCalls demoNet demoOff (Net.init demoNet (fun _ => false) true demoProbs)) =
    some [((0, 3), [⟨8, 0, 0, 2, 3⟩])] := by decide +kernel

/-- The data of the two programs differ; the networks otherwise do not. -/
example :
    otherCalls demoOn = otherCalls demoOff ∧
    ∃ m m', runCalls demoNet demoOn (Net.init demoNet (fun _ => true) true demoProbs) = .ok m ∧
      runCalls demoNet demoOff (Net.init demoNet (fun _ => false) true demoProbs) = .ok m' ∧
      m.Alike m' ∧ (m.qs 0).data ≠ (m'.qs 0).data ∧ (m'.qs 0).data ≠ [] := by
  have same : otherCalls demoOn = otherCalls demoOff := rfl
  refine ⟨same, ?_⟩
  rcases C116_new demoNet demoOn demoOff (fun _ => true) (fun _ => false) true demoProbs same with
    ⟨e, h1, h2⟩ | ⟨m, m', h1, h2, h⟩
  · have := demoOn_data
    rw [h1] at this
    cases this
  · have e1 := demoOn_data
    have e2 := demoOff_data
    rw [h1] at e1
    rw [h2] at e2
    simp only [dataOf, Option.some.injEq] at e1 e2
    refine ⟨m, m', h1, h2, h, ?_, ?_⟩
    · rw [e1, e2]; simp
    · rw [e2]; simp

end Verif
