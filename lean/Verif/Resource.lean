import Verif.QueueInv

/-! # ResourceQueue: the effect of every operation (proof support) -/

set_option linter.unusedSectionVars false
set_option linter.unusedSimpArgs false
set_option linter.unusedVariables false

namespace Verif

variable {T : Type*} [LinearOrder T] [OrderTop T] [Zero T]

/-- The effect of a call of `agent.queue_action(queue)` at a ResourceQueue: the agent's class and flags, the
number of servers and `over_max`, before and after. -/
inductive Act (c : QCfg T) : AgentKind → Cap → Nat → AgentKind → Cap → Nat → Prop
  | other (k : AgentKind) (n : Cap) (om : Nat) : (∀ has had, k ≠ .resource has had) → Act c k n om k n om
  | drop (had : Bool) (n : Cap) (om : Nat) : Act c (.resource true had) n om (.resource false true) n om
  | take (had : Bool) (n : Cap) (om : Nat) : Cap.lt 0 n = true →
      Act c (.resource false had) n om (.resource true false) (n.addInt (-1))
        (om + if (n.addInt (-1)).gt c.maxServers then 1 else 0)
  | stuck (had : Bool) (n : Cap) (om : Nat) : Cap.lt 0 n = false →
      Act c (.resource false had) n om (.resource false had) n om

theorem queueAction_act (c : QCfg T) (hk : c.kind = .resource) (s : QS T) (a : Agent T) (st : Nat) :
    ∃ k n om, Act c a.kind s.numServers s.overMax k n om ∧
      queueAction c s a st = ({ s with log := s.log ++ [(a.id, st)], numServers := n, overMax := om },
        { a with kind := k }) := by
  unfold queueAction
  rw [hk]
  obtain ⟨id, t, bl, kind⟩ := a
  cases kind with
  | plain => exact ⟨_, _, _, .other _ _ _ (by simp), rfl⟩
  | greedy => exact ⟨_, _, _, .other _ _ _ (by simp), rfl⟩
  | resource has had =>
    cases has with
    | true => exact ⟨_, _, _, .drop had _ _, rfl⟩
    | false =>
      cases h : Cap.lt 0 s.numServers with
      | true => exact ⟨_, _, _, .take had _ _ h, by simp [h]⟩
      | false => exact ⟨_, _, _, .stuck had _ _ h, by simp [h]⟩

theorem serviceFromQueue_act (c : QCfg T) (s : QS T) (hk : c.kind = .resource)
    (h : HeapOK s.departures) (a : Agent T) (rest : List (Agent T)) (hq : s.queue = a :: rest) :
    ∃ deps k n om, Act c a.kind s.numServers s.overMax k n om ∧ HeapOK deps ∧
      (agents deps).Perm
        ({ a with time := c.serviceF s.svcCalls s.currentT, kind := k } :: agents s.departures) ∧
      serviceFromQueue c s = .ok { s with
        queue := rest
        departures := deps
        svcCalls := s.svcCalls + 1
        numServers := n
        overMax := om
        log := s.log ++ [(a.id, 1)]
        data := if s.collectData then s.data.modify a.id fun r => { r with start := s.currentT }
                else s.data } := by
  obtain ⟨k, n, om, g1, g2⟩ := queueAction_act c hk { s with
    queue := rest
    svcCalls := s.svcCalls + 1
    data := if s.collectData then s.data.modify a.id fun r => { r with start := s.currentT }
            else s.data } { a with time := c.serviceF s.svcCalls s.currentT } 1
  obtain ⟨deps, h1, h2, h3, -⟩ := h.push { a with time := c.serviceF s.svcCalls s.currentT, kind := k }
  refine ⟨deps, k, n, om, g1, h2, h3, ?_⟩
  unfold serviceFromQueue
  rw [hq]
  cases hc : s.collectData <;>
    simp only [hc, Bool.false_eq_true, if_false, if_true] at g2 ⊢ <;> rw [g2] <;> simp only [h1]

/-- What a departure event of a ResourceQueue does. `a` is the agent that departs, `a'` what it is
afterwards. -/
structure ResDep (c : QCfg T) (s s' : QS T) (a a' : Agent T) : Prop where
  head : s.departures.head? = some (.agent a)
  time_eq : a.time = headTime s.departures
  same : a' = { a with kind := a'.kind }
  currentT : s'.currentT = a.time
  arrivals : s'.arrivals = s.arrivals
  ok : HeapOK s'.departures
  numSystem : s'.numSystem = s.numSystem - 1
  numTotal : s'.numTotal = s.numTotal - 1
  numDepartures : s'.numDepartures = s.numDepartures + 1
  numArrivals : s'.numArrivals = s.numArrivals
  oArrivals : s'.oArrivals = s.oArrivals
  active : s'.active = s.active
  nextCt : s'.nextCt = s.nextCt
  numBlocked : s'.numBlocked = s.numBlocked
  lost : s'.lost = s.lost
  time : s'.time = nextTime s'
  served : ∃ deps, (agents s.departures).Perm (a :: agents deps) ∧ HeapOK deps ∧
    ((∃ b rest k n om, s.queue = b :: rest ∧ s.numServers.lt (s.numSystem - 1 - s.queue.length) = true ∧
        Act c b.kind s.numServers s.overMax k n om ∧
        Act c a.kind n om a'.kind s'.numServers s'.overMax ∧
        s'.queue = rest ∧
        (agents s'.departures).Perm
          ({ b with time := c.serviceF s.svcCalls a.time, kind := k } :: agents deps) ∧
        s'.log = s.log ++ [(b.id, 1), (a.id, 2)]) ∨
      ((s.queue = [] ∨ s.numServers.lt (s.numSystem - 1 - s.queue.length) = false) ∧
        Act c a.kind s.numServers s.overMax a'.kind s'.numServers s'.overMax ∧
        s'.queue = s.queue ∧ s'.departures = deps ∧
        s'.log = s.log ++ [(a.id, 2)]))

theorem departEvent_res (c : QCfg T) (s : QS T) (hk : c.kind = .resource)
    (hd : HeapOK s.departures) (hlt : headTime s.departures < ⊤) :
    ∃ s' a a', departEvent c s = .ok (s', some a') ∧ ResDep c s s' a a' := by
  obtain ⟨a, deps, h1, h2, h3, h4, -, hhead⟩ := hd.pop hlt
  unfold departEvent
  rw [h1]
  simp only
  set s1 : QS T := { s with
    departures := deps
    currentT := a.time
    numTotal := s.numTotal - 1
    numSystem := s.numSystem - 1
    numDepartures := s.numDepartures + 1
    data := if s.collectData then s.data.modify a.id fun r => { r with dep := a.time }
            else s.data } with hs1
  have e1 : (if s.collectData = true then
      { s with
        departures := deps, currentT := a.time, numTotal := s.numTotal - 1,
        numSystem := s.numSystem - 1, numDepartures := s.numDepartures + 1,
        data := s.data.modify a.id fun r => { r with dep := a.time } }
      else { s with
        departures := deps, currentT := a.time, numTotal := s.numTotal - 1,
        numSystem := s.numSystem - 1, numDepartures := s.numDepartures + 1 }) = s1 := by
    rw [hs1]; cases s.collectData <;> simp
  rw [e1]
  by_cases hq : 0 < s.queue.length ∧ s.numServers.lt (s.numSystem - 1 - s.queue.length) = true
  · obtain ⟨b, rest, hqq⟩ : ∃ b rest, s.queue = b :: rest := by
      rcases hqq : s.queue with _ | ⟨b, rest⟩
      · rw [hqq] at hq; simp at hq
      · exact ⟨b, rest, rfl⟩
    obtain ⟨deps', k, n, om, k0, k1, k2, k3⟩ := serviceFromQueue_act c s1 hk h2 b rest hqq
    have e2 : (0 < s1.queue.length ∧ s1.numServers.lt (s1.numSystem - s1.queue.length) = true) := by
      simpa [hs1] using hq
    rw [if_pos e2, k3]
    simp only
    obtain ⟨k', n', om', g1, g2⟩ := queueAction_act c hk { s1 with
        queue := rest
        departures := deps'
        svcCalls := s1.svcCalls + 1
        numServers := n
        overMax := om
        log := s1.log ++ [(b.id, 1)]
        data := if s1.collectData then s1.data.modify b.id fun r => { r with start := s1.currentT }
                else s1.data } a 2
    rw [g2]
    refine ⟨_, a, _, rfl, ?_⟩
    constructor <;> try rfl
    · exact hhead
    · exact h4
    · exact k1
    · exact updateTime_time _
    · refine ⟨deps, h3, h2, .inl ⟨b, rest, k, n, om, hqq, hq.2, k0, g1, rfl, k2, ?_⟩⟩
      simp [updateTime, hs1]
  · have e2 : ¬ (0 < s1.queue.length ∧ s1.numServers.lt (s1.numSystem - s1.queue.length) = true) := by
      simpa [hs1] using hq
    rw [if_neg e2]
    simp only
    obtain ⟨k', n', om', g1, g2⟩ := queueAction_act c hk s1 a 2
    rw [g2]
    refine ⟨_, a, _, rfl, ?_⟩
    constructor <;> try rfl
    · exact hhead
    · exact h4
    · exact h2
    · exact updateTime_time _
    · refine ⟨deps, h3, h2, .inr ⟨?_, g1, rfl, rfl, rfl⟩⟩
      by_cases hq0 : s.queue = []
      · exact .inl hq0
      · right
        have : 0 < s.queue.length := List.length_pos_iff.mpr hq0
        cases hx : s.numServers.lt (s.numSystem - 1 - s.queue.length) with
        | false => rfl
        | true => exact absurd ⟨this, hx⟩ hq

/-- What an admitted arrival does at a ResourceQueue. -/
structure ResArr (c : QCfg T) (s s' : QS T) (a : Agent T) (rest : List (Slot T)) : Prop where
  head : s.arrivals.head? = some (.agent a)
  perm : (agents s.arrivals).Perm (a :: agents rest)
  restOk : HeapOK rest
  time_eq : a.time = headTime s.arrivals
  currentT : s'.currentT = a.time
  okA : HeapOK s'.arrivals
  okD : HeapOK s'.departures
  numSystem : s'.numSystem = s.numSystem + 1
  numTotal : s'.numTotal = s.numTotal + (s'.oArrivals - s.oArrivals : Int)
  numDepartures : s'.numDepartures = s.numDepartures
  numArrivals : s'.numArrivals = s.numArrivals + 1
  numBlocked : s'.numBlocked = s.numBlocked
  lost : s'.lost = s.lost
  time : s'.time = nextTime s'
  ext : ExtSpec c s s' a.time rest
  served : ∃ k n om, Act c a.kind s.numServers s.overMax k n om ∧
    ((∃ k', n.le (s.numSystem + 1) = true ∧ s'.queue = s.queue ∧
      Act c k n om k' s'.numServers s'.overMax ∧
      (agents s'.departures).Perm
        ({ a with time := c.serviceF s.svcCalls a.time, kind := k' } :: agents s.departures) ∧
      s'.log = s.log ++ [(a.id, 0), (a.id, 1)]) ∨
    (n.le (s.numSystem + 1) = false ∧ s'.queue = s.queue ++ [{ a with kind := k }] ∧
      s'.numServers = n ∧ s'.overMax = om ∧ s'.departures = s.departures ∧
      s'.log = s.log ++ [(a.id, 0)]))

theorem arriveEvent_res (c : QCfg T) (s : QS T) (hk : c.kind = .resource)
    (hA : HeapOK s.arrivals) (hD : HeapOK s.departures) (hlt : headTime s.arrivals < ⊤) :
    ∃ s' a rest, arriveEvent c s = .ok (s', none) ∧ ResArr c s s' a rest := by
  obtain ⟨a, rest, h1, h2, h3, h4, -, hhead⟩ := hA.pop hlt
  obtain ⟨arr, τ, ext, ν, act, calls, g1, g2, g3, g4⟩ :=
    extPart_spec c { s with arrivals := rest, currentT := a.time } (by simp [hk]) h2
  have g1' : ExtOut c s a.time ext ν act calls := by
    cases g1 with
    | inactive h => exact .inactive h
    | early h h' => exact .early h h'
    | off h h' h'' => exact .off h h' h''
    | new h h' h'' => exact .new h h' h''
  unfold arriveEvent
  rw [h1]
  simp only at g4 ⊢
  rw [g4]
  simp only
  -- the state before `queue_action(self, 0)`
  generalize hs1 : (if s.collectData = true then _ else _ : QS T) = s1
  have e : ∃ d : Data T, s1 = { s with
      arrivals := arr, currentT := a.time, time := τ, nextCt := ν, active := act, arrCalls := calls
      numTotal := s.numTotal + ext.length
      oArrivals := s.oArrivals + ext.length
      created := s.created ++ ext.map fun a => (a.id, a.time)
      numSystem := s.numSystem + 1
      numArrivals := s.numArrivals + 1
      data := d } := by
    rw [← hs1]
    cases hc : s.collectData with
    | true => exact ⟨_, rfl⟩
    | false => exact ⟨s.data, rfl⟩
  obtain ⟨d, e⟩ := e
  subst e
  obtain ⟨k, n, om, q1, q2⟩ := queueAction_act c hk { s with
      arrivals := arr, currentT := a.time, time := τ, nextCt := ν, active := act, arrCalls := calls
      numTotal := s.numTotal + ext.length
      oArrivals := s.oArrivals + ext.length
      created := s.created ++ ext.map fun a => (a.id, a.time)
      numSystem := s.numSystem + 1
      numArrivals := s.numArrivals + 1
      data := d } a 0
  rw [q2]
  simp only
  cases hle : n.le (s.numSystem + 1) with
  | true =>
    simp only [if_true]
    generalize hs2 : (if s.collectData = true then _ else _ : QS T) = s2
    have e : ∃ d : Data T, s2 = { s with
        arrivals := arr, currentT := a.time, time := τ, nextCt := ν, active := act, arrCalls := calls
        numTotal := s.numTotal + ext.length
        oArrivals := s.oArrivals + ext.length
        created := s.created ++ ext.map fun a => (a.id, a.time)
        numSystem := s.numSystem + 1
        numArrivals := s.numArrivals + 1
        log := s.log ++ [(a.id, 0)]
        numServers := n
        overMax := om
        data := d } := by
      rw [← hs2]
      cases hc : s.collectData with
      | true => exact ⟨_, rfl⟩
      | false => exact ⟨d, rfl⟩
    obtain ⟨d', e⟩ := e
    subst e
    simp only
    obtain ⟨k', n', om', r1, r2⟩ := queueAction_act c hk { s with
        arrivals := arr, currentT := a.time, time := τ, nextCt := ν, active := act, arrCalls := calls
        numTotal := s.numTotal + ext.length
        oArrivals := s.oArrivals + ext.length
        created := s.created ++ ext.map fun a => (a.id, a.time)
        numSystem := s.numSystem + 1
        numArrivals := s.numArrivals + 1
        log := s.log ++ [(a.id, 0)]
        numServers := n
        overMax := om
        svcCalls := s.svcCalls + 1
        data := d' } { a with kind := k, time := c.serviceF s.svcCalls a.time } 1
    obtain ⟨deps, k1, k2, k3, -⟩ := hD.push { a with time := c.serviceF s.svcCalls a.time, kind := k' }
    simp only at r2
    rw [r2]
    simp only [k1]
    refine ⟨_, a, rest, rfl, ?_⟩
    constructor <;> try rfl
    · exact hhead
    · exact h3
    · exact h2
    · exact h4
    · exact g2
    · exact k2
    · simp only [updateTime]; push_cast; omega
    · exact updateTime_time _
    · exact ⟨ext, g1', g3, rfl, rfl⟩
    · refine ⟨k, n, om, q1, .inl ⟨k', hle, rfl, r1, k3, ?_⟩⟩
      simp [updateTime]
  | false =>
    simp only [Bool.false_eq_true, if_false]
    refine ⟨_, a, rest, rfl, ?_⟩
    constructor <;> try rfl
    · exact hhead
    · exact h3
    · exact h2
    · exact h4
    · exact g2
    · exact hD
    · simp only [updateTime]; push_cast; omega
    · exact updateTime_time _
    · exact ⟨ext, g1', g3, rfl, rfl⟩
    · exact ⟨k, n, om, q1, .inr ⟨hle, rfl, rfl, rfl, rfl, rfl⟩⟩

/-- An arriving agent is taken off the list of arrivals and leaves: it either deposits a resource or is
turned away. -/
structure ResGone (s s' : QS T) (a : Agent T) : Prop where
  head : s.arrivals.head? = some (.agent a)
  perm : (agents s.arrivals).Perm (a :: agents s'.arrivals)
  okA : HeapOK s'.arrivals
  time_eq : a.time = headTime s.arrivals
  currentT : s'.currentT = a.time
  departures : s'.departures = s.departures
  queue : s'.queue = s.queue
  numSystem : s'.numSystem = s.numSystem
  numTotal : s'.numTotal = s.numTotal - 1
  numDepartures : s'.numDepartures = s.numDepartures
  oArrivals : s'.oArrivals = s.oArrivals
  active : s'.active = s.active
  nextCt : s'.nextCt = s.nextCt
  log : s'.log = s.log
  time : s'.time = nextTime s'

/-- Outcome of `ResourceQueue.next_event`. -/
inductive REv (c : QCfg T) (s s' : QS T) : Option (Agent T) → Prop
  | idle : headTime s.arrivals = ⊤ → headTime s.departures = ⊤ → s' = s → REv c s s' none
  | dep (a a' : Agent T) : headTime s.departures < headTime s.arrivals → ResDep c s s' a a' →
      REv c s s' (some a')
  | arr (a : Agent T) (rest : List (Slot T)) : headTime s.arrivals ≤ headTime s.departures →
      headTime s.arrivals < ⊤ → (s.numServers.add c.buffer).lt s.numSystem = true →
      (∀ has had, a.kind = .resource has had → has = false ∧ s.numServers.lt s.numSystem = true) →
      ResArr c s s' a rest → REv c s s' none
  | block (a : Agent T) (rest : List (Slot T)) : headTime s.arrivals ≤ headTime s.departures →
      headTime s.arrivals < ⊤ → (s.numServers.add c.buffer).lt s.numSystem = false →
      (∀ has had, a.kind = .resource has had → has = false ∧ s.numServers.lt s.numSystem = true) →
      s.arrivals.head? = some (.agent a) → BlockSpec c s s' a rest → REv c s s' none
  | deposit (a : Agent T) (had : Bool) : headTime s.arrivals ≤ headTime s.departures →
      headTime s.arrivals < ⊤ → a.kind = .resource true had → ResGone s s' a →
      s'.numServers = s.numServers.addInt 1 →
      s'.overMax = s.overMax + (if (s.numServers.addInt 1).gt c.maxServers then 1 else 0) →
      s'.numArrivals = s.numArrivals → s'.numBlocked = s.numBlocked → s'.lost = s.lost → REv c s s' none
  | full (a : Agent T) (had : Bool) : headTime s.arrivals ≤ headTime s.departures →
      headTime s.arrivals < ⊤ → a.kind = .resource false had → s.numServers.lt s.numSystem = false →
      ResGone s s' a → s'.numServers = s.numServers → s'.overMax = s.overMax →
      s'.numArrivals = s.numArrivals + 1 → s'.numBlocked = s.numBlocked + 1 → s'.lost = s.lost ++ [a] →
      REv c s s' none

theorem lossEvent_res (c : QCfg T) (s : QS T) (hk : c.kind = .resource)
    (hA : HeapOK s.arrivals) (hD : HeapOK s.departures)
    (hres : headTime s.arrivals ≤ headTime s.departures → ∀ a, s.arrivals.head? = some (.agent a) →
      ∀ has had, a.kind = .resource has had → has = false ∧ s.numServers.lt s.numSystem = true) :
    ∃ s' r, lossEvent c s = .ok (s', r) ∧ REv c s s' r := by
  unfold lossEvent baseEvent
  by_cases h1 : headTime s.departures < headTime s.arrivals
  · simp only [if_pos h1]
    obtain ⟨s', a, a', g1, g2⟩ := departEvent_res c s hk hD (h1.trans_le le_top)
    exact ⟨s', _, g1, .dep a a' h1 g2⟩
  · simp only [if_neg h1]
    have h1' := not_lt.mp h1
    by_cases h2 : headTime s.arrivals < ⊤
    · simp only [if_pos h2]
      cases h3 : (s.numServers.add c.buffer).lt s.numSystem with
      | true =>
        simp only [if_true]
        obtain ⟨s', a, rest, g1, g2⟩ := arriveEvent_res c s hk hA hD h2
        exact ⟨s', _, g1, .arr a rest h1' h2 h3 (hres h1' a g2.head) g2⟩
      | false =>
        simp only [Bool.false_eq_true, if_false]
        obtain ⟨s', a, rest, g1, g2, g3⟩ := blockEvent_spec c s (by simp [hk]) hA h2
        exact ⟨s', _, g1, .block a rest h1' h2 h3 (hres h1' a g3) g3 g2⟩
    · simp only [if_neg h2]
      have h2' : headTime s.arrivals = ⊤ := not_lt_top_iff.mp h2
      exact ⟨s, none, rfl, .idle h2' (top_le_iff.mp (h2' ▸ h1')) rfl⟩

theorem nextEvent_res (c : QCfg T) (s : QS T) (hk : c.kind = .resource)
    (hA : HeapOK s.arrivals) (hD : HeapOK s.departures) :
    ∃ s' r, nextEvent c s = .ok (s', r) ∧ REv c s s' r := by
  unfold nextEvent resourceEvent
  simp only [hk]
  split
  · rename_i id t bl has had hh
    by_cases h1 : headTime s.departures < headTime s.arrivals
    · rw [if_pos h1]
      exact lossEvent_res c s hk hA hD (fun h => absurd h1 (not_lt.mpr h))
    · rw [if_neg h1]
      have h1' := not_lt.mp h1
      by_cases h2 : headTime s.arrivals < ⊤
      · rw [if_pos h2]
        obtain ⟨a, rest, p1, p2, p3, p4, -, p5⟩ := hA.pop h2
        have ha : a = ⟨id, t, bl, .resource has had⟩ := by
          rw [hh] at p5; simpa using p5.symm
        cases has with
        | true =>
          simp only [if_true]
          unfold depositEvent
          rw [p1]
          refine ⟨_, none, rfl, .deposit a had h1' h2 (by rw [ha]) ?_ ?_ ?_ ?_ ?_ ?_⟩
          · cases hc : s.collectData <;>
              exact ⟨p5, p3, p2, p4, rfl, rfl, rfl, rfl, rfl, rfl, rfl, rfl, rfl, rfl, updateTime_time _⟩
          all_goals cases hc : s.collectData <;> rfl
        | false =>
          simp only [Bool.false_eq_true, if_false]
          cases h3 : s.numServers.lt s.numSystem with
          | true =>
            simp only [if_true]
            refine lossEvent_res c s hk hA hD fun _ b hb has had hb' => ?_
            rw [hh] at hb
            simp only [Option.some.injEq, Slot.agent.injEq] at hb
            rw [← hb] at hb'
            simp only [AgentKind.resource.injEq] at hb'
            exact ⟨hb'.1.symm, h3⟩
          | false =>
            simp only [Bool.false_eq_true, if_false]
            unfold resourceBlock
            rw [p1]
            refine ⟨_, none, rfl, .full a had h1' h2 (by rw [ha]) h3 ?_ ?_ ?_ ?_ ?_ ?_⟩
            · cases hc : s.collectData <;>
                exact ⟨p5, p3, p2, p4, rfl, rfl, rfl, rfl, rfl, rfl, rfl, rfl, rfl, rfl, updateTime_time _⟩
            all_goals cases hc : s.collectData <;> rfl
      · rw [if_neg h2]
        have h2' : headTime s.arrivals = ⊤ := not_lt_top_iff.mp h2
        exact ⟨s, none, rfl, .idle h2' (top_le_iff.mp (h2' ▸ h1')) rfl⟩
  · rename_i hne
    refine lossEvent_res c s hk hA hD fun _ a ha has had hk' => ?_
    obtain ⟨id, t, bl, kind⟩ := a
    simp only at hk'
    subst hk'
    exact absurd ha (hne id t bl has had)

/-- Outcome of an operation on a ResourceQueue. -/
inductive ROut (c : QCfg T) (s : QS T) : QOp T → QS T → Prop
  | ev (s' : QS T) (r : Option (Agent T)) : nextEvent c s = .ok (s', r) → REv c s s' r → ROut c s .next s'
  | already : s.active = true → ROut c s .setActive s
  | act (arr : List (Slot T)) (ext : List (Agent T)) (ν : T) (act : Bool) (calls : Nat) :
      s.active = false → AddOut c { s with active := true } ext ν act calls → HeapOK arr →
      (agents arr).Perm (ext ++ agents s.arrivals) →
      ROut c s .setActive { s with
        arrivals := arr, nextCt := ν, active := act, arrCalls := calls
        time := min (headTime arr) (headTime s.departures)
        numTotal := s.numTotal + ext.length
        oArrivals := s.oArrivals + ext.length
        created := s.created ++ ext.map fun a => (a.id, a.time) }
  | inact : ROut c s .setInactive { s with active := false }
  | srv (n : PyNum) (m : Cap) : (∃ k, n = .int k ∧ m = .fin k) ∨ (n = .infty ∧ m = .inf) →
      ROut c s (.setServers n) { s with
        numServers := m, overMax := s.overMax + (if m.gt c.maxServers then 1 else 0) }
  | srvErr : ROut c s (.setServers .other) s
  | delay (t : Option T) (kb : Nat) (s' : QS T) : DelayOut c s t kb s' → ROut c s (.delay t kb) s'
  | collect (b : Bool) : ROut c s (.collect b) { s with collectData := b }
  | noteFull : ROut c s .note { s with numBlocked := s.numBlocked + 1 }
  | noteOpen : ROut c s .note s
  | clearData : ROut c s .clearData { s with data := [] }
  | clear : ROut c s .clear { s with
      data := [], numArrivals := 0, oArrivals := 0, numDepartures := 0, numSystem := 0
      numTotal := 0, currentT := 0, time := ⊤, nextCt := 0, active := false, queue := []
      arrivals := [.infty], departures := [.infty]
      numBlocked := 0, overMax := 0, log := [], created := [], lost := [] }
  | handover (a : Agent T) (arr : List (Slot T)) : HeapOK arr →
      (agents arr).Perm (a :: agents s.arrivals) → headTime arr = min a.time (headTime s.arrivals) →
      ROut c s (.handover a) { s with
        arrivals := arr
        time := min (headTime arr) (headTime s.departures)
        numTotal := s.numTotal + 1 }

theorem rOut (c : QCfg T) (s s' : QS T) (op : QOp T) (hk : c.kind = .resource) (h : QBase s)
    (hr : op.run c s = .ok s') : ROut c s op s' := by
  have hn : c.kind ≠ .null := by simp [hk]
  cases op with
  | next =>
    obtain ⟨s1, r, h1, h2⟩ := nextEvent_res c s hk h.okA h.okD
    simp only [QOp.run, h1, Except.ok.injEq] at hr
    subst hr
    exact .ev _ r h1 h2
  | setActive =>
    simp only [QOp.run] at hr
    cases ha : s.active with
    | true =>
      simp only [setActive, ha, if_true, Except.ok.injEq] at hr
      subst hr; exact .already ha
    | false =>
      obtain ⟨arr, ext, ν, act, calls, h1, h2, h3, h4⟩ := setActive_spec c s hn h.okA h.time ha
      rw [h4] at hr
      simp only [Except.ok.injEq] at hr
      subst hr
      exact .act arr ext ν act calls ha h1 h2 h3
  | setInactive =>
    simp only [QOp.run, Except.ok.injEq] at hr
    subst hr; exact .inact
  | setServers n =>
    simp only [QOp.run, Except.ok.injEq] at hr
    subst hr
    simp only [setNumServers, hk]
    cases n with
    | int k => exact .srv _ (.fin k) (.inl ⟨k, rfl, rfl⟩)
    | infty => exact .srv _ .inf (.inr ⟨rfl, rfl⟩)
    | other => exact .srvErr
  | delay t kb =>
    simp only [QOp.run] at hr
    obtain ⟨s1, h1, h2⟩ := delayBump_spec c s t kb hn h.okD (delayBump_fin c s s' t kb hn h.okD hr)
    rw [h1] at hr
    simp only [Except.ok.injEq] at hr
    subst hr; exact .delay t kb _ h2
  | note =>
    simp only [QOp.run, Except.ok.injEq] at hr
    by_cases hc : atCapacity c s = true
    · rw [if_pos hc] at hr
      subst hr
      exact .noteFull
    · rw [if_neg hc] at hr
      subst hr; exact .noteOpen
  | clearData =>
    simp only [QOp.run, Except.ok.injEq] at hr
    subst hr; exact .clearData
  | collect b =>
    simp only [QOp.run, Except.ok.injEq] at hr
    subst hr; exact .collect b
  | clear =>
    simp only [QOp.run, Except.ok.injEq] at hr
    subst hr
    simp only [Verif.clear, hk]
    exact .clear
  | handover a =>
    simp only [QOp.run] at hr
    obtain ⟨arr, h1, h2, h3, h4⟩ := handover_spec c s a hn h.okA h.time
    rw [h4] at hr
    simp only [Except.ok.injEq] at hr
    subst hr; exact .handover a arr h1 h2 h3

theorem REv.base {c : QCfg T} {s s' : QS T} {r : Option (Agent T)} (h : QBase s) (h1 : REv c s s' r) :
    QBase s' := by
  cases h1 with
  | idle _ _ h2 => rw [h2]; exact h
  | dep a a' _ h2 => exact ⟨by rw [h2.arrivals]; exact h.okA, h2.ok, h2.time⟩
  | arr a rest _ _ _ _ h2 => exact ⟨h2.okA, h2.okD, h2.time⟩
  | block a rest _ _ _ _ _ h2 => exact ⟨h2.okA, by rw [h2.departures]; exact h.okD, h2.time⟩
  | deposit a had _ _ _ h2 => exact ⟨h2.okA, by rw [h2.departures]; exact h.okD, h2.time⟩
  | full a had _ _ _ _ h2 => exact ⟨h2.okA, by rw [h2.departures]; exact h.okD, h2.time⟩

theorem QBase.stepR {c : QCfg T} {s s' : QS T} {op : QOp T} (h : QBase s) (ho : ROut c s op s') :
    QBase s' := by
  cases ho with
  | ev s' r _ h1 => exact h1.base h
  | already => exact h
  | act arr ext ν act calls _ h1 h2 h3 => exact ⟨h2, h.okD, rfl⟩
  | inact => exact ⟨h.okA, h.okD, h.time⟩
  | srv n m h1 => exact ⟨h.okA, h.okD, h.time⟩
  | srvErr => exact h
  | delay t kb s' h1 =>
    cases h1 with
    | none => exact h
    | some a rest deps _ _ _ _ h2 _ => exact ⟨h.okA, h2, rfl⟩
  | collect => exact ⟨h.okA, h.okD, h.time⟩
  | noteFull => exact ⟨h.okA, h.okD, h.time⟩
  | noteOpen => exact h
  | clearData => exact ⟨h.okA, h.okD, h.time⟩
  | clear => exact ⟨.single, .single, by simp [nextTime, headTime, Slot.time]⟩
  | handover a arr h1 h2 h3 => exact ⟨h1, h.okD, rfl⟩

/-- Every history of a ResourceQueue keeps the shape. -/
theorem Reach.baseR {c : QCfg T} {b : Bool} {ok : QS T → QOp T → Prop} {s : QS T} (hk : c.kind = .resource)
    (h : Reach c b ok s) : QBase s := by
  induction h with
  | init => exact .init c b
  | step op _ _ hr ih => exact ih.stepR (rOut _ _ _ op hk ih hr)

theorem Reach.inductR {c : QCfg T} {b : Bool} {ok : QS T → QOp T → Prop} {P : QS T → Prop}
    (hk : c.kind = .resource) (h0 : P (QS.init c b))
    (hs : ∀ s s' op, QBase s → P s → ok s op → ROut c s op s' → P s')
    {s : QS T} (h : Reach c b ok s) : P s := by
  induction h with
  | init => exact h0
  | step op h1 h2 hr ih => exact hs _ _ op (h1.baseR hk) ih h2 (rOut _ _ _ op hk (h1.baseR hk) hr)

/-- Census and order of service of a ResourceQueue (no work conservation: see `C75_waits_at_idle_server`). -/
structure RInv (s : QS T) : Prop where
  numSystem : s.numSystem = s.queue.length + (agents s.departures).length
  numTotal : s.numTotal = s.numSystem + (agents s.arrivals).length
  countsLe : s.numDepartures + s.numSystem ≤ (s.numArrivals : Int)
  countsGe : (s.numArrivals : Int) ≤ s.numDepartures + s.numSystem + s.numBlocked
  line : (stageIds 0 s.log).Perm (stageIds 1 s.log ++ s.queue.map (·.id))
  once : (stageIds 1 s.log).Perm (stageIds 2 s.log ++ (agents s.departures).map (·.id))

theorem RInv.step {c : QCfg T} {s s' : QS T} {op : QOp T} (h : RInv s) (ho : ROut c s op s') : RInv s' := by
  obtain ⟨i1, i2, i3, i4, i5, i6⟩ := h
  cases ho with
  | ev s' r _ h1 =>
    cases h1 with
    | idle _ _ h2 => rw [h2]; exact ⟨i1, i2, i3, i4, i5, i6⟩
    | dep a a' _ h2 =>
      obtain ⟨deps, g1, g2, g3⟩ := h2.served
      have hlen := g1.length_eq
      simp only [List.length_cons] at hlen
      rcases g3 with ⟨b, rest, k, n, om, e0, -, -, -, e1, e2, e3⟩ | ⟨-, -, e1, e2, e3⟩
      · have hl2 := e2.length_eq
        simp only [List.length_cons] at hl2
        refine ⟨?_, ?_, ?_, ?_, ?_, ?_⟩
        · rw [h2.numSystem, e1, hl2, i1, e0]; simp only [List.length_cons]; push_cast; omega
        · rw [h2.numTotal, h2.numSystem, h2.arrivals]; omega
        · rw [h2.numDepartures, h2.numSystem, h2.numArrivals]; push_cast; omega
        · rw [h2.numDepartures, h2.numSystem, h2.numArrivals, h2.numBlocked]; push_cast; omega
        · rw [e3, e1]
          rw [e0] at i5
          simpa using i5
        · rw [e3]
          simp only [stageIds_append, stageIds_cons, stageIds_nil]
          have h3 := e2.map Agent.id
          simp only [List.map_cons] at h3
          have h4 := g1.map Agent.id
          simp only [List.map_cons] at h4
          simp only [List.append_nil, if_true, show (2 : Nat) ≠ 1 by omega, show (1 : Nat) ≠ 2 by omega,
            if_false, List.nil_append]
          calc (stageIds 1 s.log ++ [b.id]).Perm
                ((stageIds 2 s.log ++ (agents s.departures).map (·.id)) ++ [b.id]) := i6.append_right _
            _ |>.Perm ((stageIds 2 s.log ++ (a.id :: (agents deps).map (·.id))) ++ [b.id]) :=
                (h4.append_left _).append_right _
            _ |>.Perm (stageIds 2 s.log ++ [a.id] ++ (b.id :: (agents deps).map (·.id))) := by
                simp only [List.append_assoc, List.cons_append, List.nil_append]
                refine List.Perm.append_left _ (List.Perm.cons _ ?_)
                exact List.perm_append_comm
            _ |>.Perm _ := List.Perm.append_left _ h3.symm
      · refine ⟨?_, ?_, ?_, ?_, ?_, ?_⟩
        · rw [h2.numSystem, e1, e2, i1]; omega
        · rw [h2.numTotal, h2.numSystem, h2.arrivals]; omega
        · rw [h2.numDepartures, h2.numSystem, h2.numArrivals]; push_cast; omega
        · rw [h2.numDepartures, h2.numSystem, h2.numArrivals, h2.numBlocked]; push_cast; omega
        · rw [e3, e1]; simpa using i5
        · rw [e3, e2]
          simp only [stageIds_append, stageIds_cons, stageIds_nil]
          have h4 := g1.map Agent.id
          simp only [List.map_cons] at h4
          simp only [List.append_nil, if_true, show (2 : Nat) ≠ 1 by omega, if_false]
          refine i6.trans ((h4.append_left _).trans ?_)
          simp
    | arr a rest _ _ _ _ h2 =>
      obtain ⟨ext, x1, x2, x3, -⟩ := h2.ext
      have xl := x2.length_eq
      have pl := h2.perm.length_eq
      simp only [List.length_cons, List.length_append] at xl pl
      obtain ⟨k, n, om, -, ⟨k', -, e1, -, e2, e3⟩ | ⟨-, e1, -, -, e2, e3⟩⟩ := h2.served
      · have hl2 := e2.length_eq
        simp only [List.length_cons] at hl2
        refine ⟨?_, ?_, ?_, ?_, ?_, ?_⟩
        · rw [h2.numSystem, e1, hl2, i1]; push_cast; omega
        · rw [h2.numTotal, h2.numSystem]; omega
        · rw [h2.numDepartures, h2.numSystem, h2.numArrivals]; push_cast; omega
        · rw [h2.numDepartures, h2.numSystem, h2.numArrivals, h2.numBlocked]; push_cast; omega
        · rw [e3, e1]
          simp only [stageIds_append, stageIds_cons, stageIds_nil, List.append_nil, if_true, if_false,
            show (1 : Nat) ≠ 0 by omega, show (0 : Nat) ≠ 1 by omega, List.nil_append]
          refine (i5.append_right [a.id]).trans ?_
          rw [List.append_assoc, List.append_assoc]
          exact List.Perm.append_left _ List.perm_append_comm
        · rw [e3]
          have p1 := e2.map Agent.id
          simp only [List.map_cons] at p1
          simp only [stageIds_append, stageIds_cons, stageIds_nil, List.append_nil, if_true, if_false,
            show (1 : Nat) ≠ 2 by omega, show (0 : Nat) ≠ 2 by omega, show (0 : Nat) ≠ 1 by omega,
            List.nil_append]
          refine (i6.append_right [a.id]).trans ?_
          refine List.Perm.trans ?_ (List.Perm.append_left _ p1.symm)
          rw [List.append_assoc]
          exact List.Perm.append_left _ (List.perm_append_singleton _ _)
      · refine ⟨?_, ?_, ?_, ?_, ?_, ?_⟩
        · rw [h2.numSystem, e1, e2, i1]; simp only [List.length_append, List.length_singleton]; push_cast; omega
        · rw [h2.numTotal, h2.numSystem]; omega
        · rw [h2.numDepartures, h2.numSystem, h2.numArrivals]; push_cast; omega
        · rw [h2.numDepartures, h2.numSystem, h2.numArrivals, h2.numBlocked]; push_cast; omega
        · rw [e3, e1]
          simp only [stageIds_append, stageIds_cons, stageIds_nil, List.append_nil, if_true, if_false,
            show (0 : Nat) ≠ 1 by omega, List.map_append, List.map_cons, List.map_nil]
          rw [← List.append_assoc]
          exact i5.append_right _
        · rw [e3, e2]
          simpa using i6
    | block a rest _ _ _ _ _ h2 =>
      obtain ⟨ext, x1, x2, x3, -⟩ := h2.ext
      have xl := x2.length_eq
      have pl := h2.perm.length_eq
      simp only [List.length_cons, List.length_append] at xl pl
      refine ⟨?_, ?_, ?_, ?_, ?_, ?_⟩
      · rw [h2.numSystem, h2.queue, h2.departures, i1]
      · rw [h2.numTotal, h2.numSystem]; omega
      · rw [h2.numDepartures, h2.numSystem, h2.numArrivals]; omega
      · rw [h2.numDepartures, h2.numSystem, h2.numArrivals, h2.numBlocked]; push_cast; omega
      · rw [h2.log, h2.queue]; exact i5
      · rw [h2.log, h2.departures]; exact i6
    | deposit a had _ _ _ h2 e1 e2 e3 e4 e5 =>
      have pl := h2.perm.length_eq
      simp only [List.length_cons] at pl
      refine ⟨?_, ?_, ?_, ?_, ?_, ?_⟩
      · rw [h2.numSystem, h2.queue, h2.departures, i1]
      · rw [h2.numTotal, h2.numSystem]; omega
      · rw [h2.numDepartures, h2.numSystem, e3]; omega
      · rw [h2.numDepartures, h2.numSystem, e3, e4]; omega
      · rw [h2.log, h2.queue]; exact i5
      · rw [h2.log, h2.departures]; exact i6
    | full a had _ _ _ _ h2 e1 e2 e3 e4 e5 =>
      have pl := h2.perm.length_eq
      simp only [List.length_cons] at pl
      refine ⟨?_, ?_, ?_, ?_, ?_, ?_⟩
      · rw [h2.numSystem, h2.queue, h2.departures, i1]
      · rw [h2.numTotal, h2.numSystem]; omega
      · rw [h2.numDepartures, h2.numSystem, e3]; push_cast; omega
      · rw [h2.numDepartures, h2.numSystem, e3, e4]; push_cast; omega
      · rw [h2.log, h2.queue]; exact i5
      · rw [h2.log, h2.departures]; exact i6
  | already => exact ⟨i1, i2, i3, i4, i5, i6⟩
  | act arr ext ν act calls _ h1 h2 h3 =>
    refine ⟨i1, ?_, i3, i4, i5, i6⟩
    have := h3.length_eq
    simp only [List.length_append] at this
    show s.numTotal + ext.length = s.numSystem + (agents arr).length
    omega
  | inact => exact ⟨i1, i2, i3, i4, i5, i6⟩
  | srv n m h1 => exact ⟨i1, i2, i3, i4, i5, i6⟩
  | srvErr => exact ⟨i1, i2, i3, i4, i5, i6⟩
  | delay t kb s' h1 =>
    cases h1 with
    | none => exact ⟨i1, i2, i3, i4, i5, i6⟩
    | some a rest deps _ _ _ h4 _ h3 =>
      have l1 := h4.length_eq
      have l2 := h3.length_eq
      simp only [List.length_cons] at l1 l2
      refine ⟨?_, i2, i3, i4, i5, ?_⟩
      · show s.numSystem = s.queue.length + (agents deps).length
        omega
      · refine i6.trans (List.Perm.append_left _ ?_)
        have p1 := h4.map Agent.id
        have p2 := h3.map Agent.id
        simp only [List.map_cons] at p1 p2
        exact p1.trans p2.symm
  | collect => exact ⟨i1, i2, i3, i4, i5, i6⟩
  | noteFull => exact ⟨i1, i2, i3, by show _ ≤ _ + _ + ((s.numBlocked + 1 : Nat) : Int); push_cast; omega, i5, i6⟩
  | noteOpen => exact ⟨i1, i2, i3, i4, i5, i6⟩
  | clearData => exact ⟨i1, i2, i3, i4, i5, i6⟩
  | clear => constructor <;> simp
  | handover a arr h1 h2 h3 =>
    refine ⟨i1, ?_, i3, i4, i5, i6⟩
    have := h2.length_eq
    simp only [List.length_cons] at this
    show s.numTotal + 1 = s.numSystem + (agents arr).length
    omega

theorem Reach.rinv {c : QCfg T} {b : Bool} {ok : QS T → QOp T → Prop} {s : QS T} (hk : c.kind = .resource)
    (h : Reach c b ok s) : RInv s := by
  refine h.inductR hk ?_ fun _ _ _ _ hi _ ho => hi.step ho
  constructor <;> simp [QS.init]

end Verif
