import Verif.QueueSpec

/-! # Histories of a single queue, and the effect of every operation (proof support) -/

set_option linter.unusedSectionVars false
set_option linter.unusedSimpArgs false
set_option linter.unusedVariables false

namespace Verif

variable {T : Type*} [LinearOrder T] [OrderTop T] [Zero T]

/-- What a user (or the network a queue belongs to) can do with a queue. `handover a` is the
network's `_add_arrival(agent)`; `delay t k` is `delay_service(t)`, preceded for `k > 0` by the network's
increments of the `blocked` counter of the next agent to depart; `note` is the network's
`q2.num_blocked += 1` (queue_network.py line 1323) at a queue that is at capacity; `clearData` is
`QueueNetwork.clear_data`. -/
inductive QOp (T : Type*)
  | next
  | setActive
  | setInactive
  | setServers (n : PyNum)
  | delay (t : Option T) (bump : Nat)
  | collect (b : Bool)
  | note
  | clearData
  | clear
  | handover (a : Agent T)

/-- Perform an operation. An exception raised by `set_num_servers` is caught (the state then is the one
left behind); other exceptions end the history. -/
def QOp.run (c : QCfg T) (s : QS T) : QOp T → Except Err (QS T)
  | .next => match nextEvent c s with
    | .error e => .error e
    | .ok (s', _) => .ok s'
  | .setActive => Verif.setActive c s
  | .setInactive => .ok (Verif.setInactive s)
  | .setServers n => .ok (setNumServers c s n).1
  | .delay t k => delayService c (bumpHead s k) t
  | .collect b => .ok { s with collectData := b }
  | .note => .ok (if atCapacity c s then { s with numBlocked := s.numBlocked + 1 } else s)
  | .clearData => .ok { s with data := [] }
  | .clear => .ok (Verif.clear c s)
  | .handover a => addArrivalAgent c s a

/-- Histories from construction with `collect_data=b`; `ok` restricts the operations allowed in each
state. -/
inductive Reach (c : QCfg T) (b : Bool) (ok : QS T → QOp T → Prop) : QS T → Prop
  | init : Reach c b ok (QS.init c b)
  | step {s s' : QS T} (op : QOp T) : Reach c b ok s → ok s op → op.run c s = .ok s' → Reach c b ok s'

/-- The queue classes `QueueServer` and `LossQueue`. -/
def Simple (c : QCfg T) : Prop := c.kind = .server ∨ c.kind = .loss

theorem Simple.ne_res {c : QCfg T} (h : Simple c) : c.kind ≠ .resource := by
  rcases h with h | h <;> simp [h]

theorem Simple.ne_null {c : QCfg T} (h : Simple c) : c.kind ≠ .null := by
  rcases h with h | h <;> simp [h]

/-- Outcome of `next_event`. -/
inductive EvOut (c : QCfg T) (s s' : QS T) : Option (Agent T) → Prop
  | idle : headTime s.arrivals = ⊤ → headTime s.departures = ⊤ → s' = s → EvOut c s s' none
  | dep (a : Agent T) : headTime s.departures < headTime s.arrivals → DepSpec c s s' a →
      s.departures.head? = some (.agent a) → EvOut c s s' (some a)
  | arr (a : Agent T) (rest : List (Slot T)) : headTime s.arrivals ≤ headTime s.departures →
      headTime s.arrivals < ⊤ → (c.kind = .loss → (s.numServers.add c.buffer).lt s.numSystem = true) →
      ArrSpec c s s' a rest → s.arrivals.head? = some (.agent a) → EvOut c s s' none
  | block (a : Agent T) (rest : List (Slot T)) : headTime s.arrivals ≤ headTime s.departures →
      headTime s.arrivals < ⊤ → c.kind = .loss → (s.numServers.add c.buffer).lt s.numSystem = false →
      BlockSpec c s s' a rest → s.arrivals.head? = some (.agent a) → EvOut c s s' none

theorem baseEvent_spec (c : QCfg T) (s : QS T) (hk : Simple c)
    (hA : HeapOK s.arrivals) (hD : HeapOK s.departures)
    (hc : c.kind = .loss → headTime s.arrivals ≤ headTime s.departures → headTime s.arrivals < ⊤ →
      (s.numServers.add c.buffer).lt s.numSystem = true) :
    ∃ s' r, baseEvent c s = .ok (s', r) ∧ EvOut c s s' r := by
  unfold baseEvent
  by_cases h1 : headTime s.departures < headTime s.arrivals
  · rw [if_pos h1]
    obtain ⟨s', a, g1, g2, g3⟩ := departEvent_spec c s hk.ne_res hD (h1.trans_le le_top)
    exact ⟨s', some a, g1, .dep a h1 g2 g3⟩
  · rw [if_neg h1]
    by_cases h2 : headTime s.arrivals < ⊤
    · rw [if_pos h2]
      obtain ⟨s', a, rest, g1, g2, g3⟩ := arriveEvent_spec c s hk.ne_res hk.ne_null hA hD h2
      exact ⟨s', none, g1, .arr a rest (not_lt.mp h1) h2 (fun h => hc h (not_lt.mp h1) h2) g2 g3⟩
    · rw [if_neg h2]
      have h3 := not_lt_top_iff.mp h2
      refine ⟨s, none, rfl, .idle h3 ?_ rfl⟩
      have := not_lt.mp h1
      rw [h3] at this
      exact top_le_iff.mp this

theorem nextEvent_spec (c : QCfg T) (s : QS T) (hk : Simple c)
    (hA : HeapOK s.arrivals) (hD : HeapOK s.departures) :
    ∃ s' r, nextEvent c s = .ok (s', r) ∧ EvOut c s s' r := by
  unfold nextEvent
  rcases hk with hk | hk
  · rw [hk]
    exact baseEvent_spec c s (.inl hk) hA hD (by simp [hk])
  · rw [hk]
    simp only [lossEvent]
    by_cases h1 : headTime s.departures < headTime s.arrivals
    · rw [if_pos h1]
      exact baseEvent_spec c s (.inr hk) hA hD (fun _ h => absurd h1 (not_lt.mpr h))
    · rw [if_neg h1]
      by_cases h2 : headTime s.arrivals < ⊤
      · rw [if_pos h2]
        cases h3 : (s.numServers.add c.buffer).lt s.numSystem with
        | true => exact baseEvent_spec c s (.inr hk) hA hD (fun _ _ _ => h3)
        | false =>
          obtain ⟨s', a, rest, g1, g2, g3⟩ := blockEvent_spec c s (by simp [hk]) hA h2
          exact ⟨s', none, by simpa using g1, .block a rest (not_lt.mp h1) h2 hk h3 g2 g3⟩
      · rw [if_neg h2]
        have h3 := not_lt_top_iff.mp h2
        refine ⟨s, none, rfl, .idle h3 ?_ rfl⟩
        have := not_lt.mp h1
        rw [h3] at this
        exact top_le_iff.mp this

/-- The agents started by `k` calls of `_service_from_queue`, with their departure times. -/
def startServ (c : QCfg T) (n : Nat) (t : T) : List (Agent T) → List (Agent T)
  | [] => []
  | a :: l => { a with time := c.serviceF n t } :: startServ c (n + 1) t l

@[simp] theorem startServ_length (c : QCfg T) (n : Nat) (t : T) (l : List (Agent T)) :
    (startServ c n t l).length = l.length := by
  induction l generalizing n with
  | nil => rfl
  | cons a l ih => simp [startServ, ih]

@[simp] theorem startServ_ids (c : QCfg T) (n : Nat) (t : T) (l : List (Agent T)) :
    (startServ c n t l).map (·.id) = l.map (·.id) := by
  induction l generalizing n with
  | nil => rfl
  | cons a l ih => simp [startServ, ih]

/-- The corresponding changes of the data. -/
def startData (t : T) (d : Data T) : List (Agent T) → Data T
  | [] => d
  | a :: l => startData t (d.modify a.id fun r => { r with start := t }) l

theorem serviceMany_spec (c : QCfg T) (hk : c.kind ≠ .resource) (k : Nat) (s : QS T)
    (h : HeapOK s.departures) (hle : k ≤ s.queue.length) :
    ∃ deps, HeapOK deps ∧
      (agents deps).Perm
        (startServ c s.svcCalls s.currentT (s.queue.take k) ++ agents s.departures) ∧
      serviceMany c k s = .ok { s with
        queue := s.queue.drop k
        departures := deps
        svcCalls := s.svcCalls + k
        log := s.log ++ (s.queue.take k).map fun a => (a.id, 1)
        data := if s.collectData then startData s.currentT s.data (s.queue.take k) else s.data } := by
  induction k generalizing s with
  | zero =>
    refine ⟨s.departures, h, by simp [startServ], ?_⟩
    cases hc : s.collectData <;> simp [serviceMany, startData, ← hc]
  | succ k ih =>
    obtain ⟨a, rest, hq⟩ : ∃ a rest, s.queue = a :: rest := by
      rcases hqq : s.queue with _ | ⟨b, rest⟩
      · rw [hqq] at hle; simp at hle
      · exact ⟨b, rest, rfl⟩
    obtain ⟨deps, g1, g2, g3⟩ := serviceFromQueue_spec c s hk h a rest hq
    obtain ⟨deps', k1, k2, k3⟩ := ih { s with
        queue := rest
        departures := deps
        svcCalls := s.svcCalls + 1
        log := s.log ++ [(a.id, 1)]
        data := if s.collectData then s.data.modify a.id fun r => { r with start := s.currentT }
                else s.data } g1 (by rw [hq] at hle; simpa using hle)
    refine ⟨deps', k1, ?_, ?_⟩
    · rw [hq]
      simp only [List.take_succ_cons, startServ, List.cons_append]
      refine k2.trans ?_
      refine (List.Perm.append_left _ g2).trans ?_
      exact List.perm_middle
    · simp only [serviceMany, g3, k3]
      rw [hq]
      cases hc : s.collectData <;>
        simp [startData, Nat.add_assoc, Nat.add_comm 1 k]

/-- Outcome of `set_num_servers`. -/
inductive SrvOut (c : QCfg T) (s : QS T) (n : PyNum) : QS T → Option Err → Prop
  | typ : n = .other ∨ (n = .infty ∧ s.numServers = .inf) → SrvOut c s n s (some .typeError)
  | val (m : Int) : n = .int m → m ≤ 0 → SrvOut c s n s (some .valueError)
  | ok (new : Cap) (k : Nat) (deps : List (Slot T)) :
      ((∃ m, n = .int m ∧ 0 < m ∧ new = .fin m) ∨ (n = .infty ∧ new = .inf)) →
      agentsToQueue new s.numServers s.queue.length = some k → k ≤ s.queue.length →
      HeapOK deps →
      (agents deps).Perm
        (startServ c s.svcCalls s.currentT (s.queue.take k) ++ agents s.departures) →
      SrvOut c s n { s with
        numServers := new
        queue := s.queue.drop k
        departures := deps
        time := if 0 < k then min (headTime s.arrivals) (headTime deps) else s.time
        svcCalls := s.svcCalls + k
        log := s.log ++ (s.queue.take k).map fun a => (a.id, 1)
        data := if s.collectData then startData s.currentT s.data (s.queue.take k) else s.data } none

theorem agentsToQueue_le {new old : Cap} {len k : Nat} (h : agentsToQueue new old len = some k) :
    k ≤ len := by
  unfold agentsToQueue at h
  split at h
  · simp at h; omega
  · simp at h; omega
  · simp at h; omega
  · simp at h

theorem setNumServers_spec (c : QCfg T) (s : QS T) (n : PyNum) (hk : Simple c)
    (hD : HeapOK s.departures) :
    SrvOut c s n (setNumServers c s n).1 (setNumServers c s n).2 := by
  have go : ∀ new : Cap, ((∃ m, n = .int m ∧ 0 < m ∧ new = .fin m) ∨ (n = .infty ∧ new = .inf)) →
      SrvOut c s n
        (match agentsToQueue new s.numServers s.queue.length with
          | none => (s, some Err.typeError)
          | some k =>
            match serviceMany c k s with
            | .error e => (s, some e)
            | .ok s' =>
              (({ (if 0 < k then updateTime s' else s') with numServers := new } : QS T), none)).1
        (match agentsToQueue new s.numServers s.queue.length with
          | none => (s, some Err.typeError)
          | some k =>
            match serviceMany c k s with
            | .error e => (s, some e)
            | .ok s' =>
              (({ (if 0 < k then updateTime s' else s') with numServers := new } : QS T), none)).2 := by
    intro new hnew
    cases hk' : agentsToQueue new s.numServers s.queue.length with
    | none =>
      simp only
      refine .typ (.inr ?_)
      unfold agentsToQueue at hk'
      split at hk' <;> simp at hk'
      rename_i hs
      rcases hnew with ⟨m, -, -, h⟩ | ⟨h, -⟩
      · simp at h
      · exact ⟨h, hs⟩
    | some k =>
      obtain ⟨deps, g1, g2, g3⟩ := serviceMany_spec c hk.ne_res k s hD (agentsToQueue_le hk')
      simp only [g3]
      have key := SrvOut.ok (c := c) (s := s) (n := n) new k deps hnew hk' (agentsToQueue_le hk') g1 g2
      by_cases h0 : 0 < k
      · simp only [h0, if_true] at key ⊢
        rw [updateTime_eq]
        exact key
      · simp only [h0, if_false] at key ⊢
        exact key
  unfold setNumServers
  rcases hk with hk | hk <;> rw [hk] <;> cases n with
  | other => exact .typ (.inl rfl)
  | infty => exact go .inf (.inr ⟨rfl, rfl⟩)
  | int m =>
    simp only
    by_cases hm : m ≤ 0
    · rw [if_pos hm]; exact .val m rfl hm
    · rw [if_neg hm]; exact go (.fin m) (.inl ⟨m, rfl, by omega, rfl⟩)

/-- Outcome of `delay_service`. -/
inductive DelayOut (c : QCfg T) (s : QS T) (t : Option T) (k : Nat) : QS T → Prop
  | none : agents s.departures = [] → DelayOut c s t k s
  | some (a : Agent T) (rest deps : List (Slot T)) :
      s.departures.head? = some (.agent a) → HeapOK rest →
      a.time = headTime s.departures →
      (agents s.departures).Perm (a :: agents rest) → HeapOK deps →
      (agents deps).Perm ({ a with
        time := t.getD (c.serviceF s.svcCalls a.time), blocked := a.blocked + k } :: agents rest) →
      DelayOut c s t k { s with
        departures := deps
        time := min (headTime s.arrivals) (headTime deps)
        svcCalls := if t = none then s.svcCalls + 1 else s.svcCalls }

theorem delayService_spec (c : QCfg T) (s : QS T) (t : Option T) (hk : c.kind ≠ .null)
    (hD : HeapOK s.departures) (hfin : agents s.departures ≠ [] → s.departures.head? ≠ some .infty) :
    ∃ s', delayService c s t = .ok s' ∧ DelayOut c s t 0 s' := by
  unfold delayService
  rw [if_neg hk]
  by_cases h1 : 1 < s.departures.length
  · rw [if_pos h1]
    have h2 : agents s.departures ≠ [] := by
      intro h; have := hD.one; rw [h] at this; simp at this; omega
    obtain ⟨a, rest, g1, g2, g3, g4, -, g6⟩ := hD.pop' (hfin h2)
    rw [g1]
    simp only
    obtain ⟨deps, k1, k2, k3, -⟩ := g2.push { a with time := t.getD (c.serviceF s.svcCalls a.time) }
    have key := DelayOut.some (c := c) (s := s) (t := t) (k := 0) a rest deps g6 g2 g4 g3 k2 k3
    cases t with
    | none =>
      simp only [Option.getD_none] at k1
      simp only [k1]
      refine ⟨_, rfl, ?_⟩
      rw [updateTime_eq]
      simpa [nextTime] using key
    | some t =>
      simp only [Option.getD_some] at k1
      simp only [k1]
      refine ⟨_, rfl, ?_⟩
      rw [updateTime_eq]
      simpa [nextTime] using key
  · rw [if_neg h1]
    refine ⟨s, rfl, .none ?_⟩
    have := hD.one
    rw [← List.length_eq_zero_iff]; omega

/-- If `delay_service` does not raise, then somebody finite is first, or nobody is in service. -/
theorem delayService_fin (c : QCfg T) (s s' : QS T) (t : Option T) (hk : c.kind ≠ .null)
    (hD : HeapOK s.departures) (h : delayService c s t = .ok s') :
    agents s.departures ≠ [] → s.departures.head? ≠ some .infty := by
  intro h1 h2
  cases hl : s.departures with
  | nil => rw [hl] at h1; simp at h1
  | cons x l =>
    rw [hl] at h2; simp at h2; subst h2
    have hlen : 1 < s.departures.length := by
      have := hD.one
      have h3 : 0 < (agents s.departures).length := List.length_pos_iff.mpr h1
      omega
    unfold delayService at h
    rw [if_neg hk, if_pos hlen, hl] at h
    have hh := hD.heap
    rw [hl] at hh
    obtain ⟨l', g1, -, -⟩ := heappop_spec Slot.time .infty l hh
    rw [g1] at h
    simp at h

theorem bumpHead_zero (s : QS T) : bumpHead s 0 = s := by
  unfold bumpHead
  split
  · rename_i a rest h
    cases s
    simp only at h
    subst h
    rfl
  · rfl

theorem bumpHead_times (l l' : List (Slot T)) (h : l.map Slot.time = l'.map Slot.time)
    (hl : IsHeap Slot.time l) : IsHeap Slot.time l' := by
  have hlen : l'.length = l.length := by simpa using (congrArg List.length h).symm
  have hget : ∀ (i : Nat) (x : Slot T), l'[i]? = some x → ∃ y : Slot T, l[i]? = some y ∧ y.time = x.time := by
    intro i x hx
    have := congrArg (fun m => m[i]?) h
    simp only [List.getElem?_map, hx, Option.map_some] at this
    rcases hy : l[i]? with _ | y
    · rw [hy] at this; simp at this
    · rw [hy] at this; simp at this; exact ⟨y, rfl, this⟩
  intro i hi hin hs x y hx hy
  obtain ⟨x', g1, g2⟩ := hget _ _ hx
  obtain ⟨y', g3, g4⟩ := hget _ _ hy
  rw [← g2, ← g4]
  exact hl i hi (by omega) hs x' y' g1 g3

/-- The departures after `bumpHead`. -/
theorem bumpHead_cases (s : QS T) (k : Nat) : bumpHead s k = s ∧ (∀ a, s.departures.head? ≠ some (.agent a)) ∨
    ∃ a rest, s.departures = .agent a :: rest ∧
      bumpHead s k = { s with departures := .agent { a with blocked := a.blocked + k } :: rest } := by
  unfold bumpHead
  split
  · rename_i a rest h
    exact .inr ⟨a, rest, h, rfl⟩
  · rename_i h
    refine .inl ⟨rfl, fun a ha => ?_⟩
    cases hd : s.departures with
    | nil => rw [hd] at ha; simp at ha
    | cons x l => rw [hd] at ha; simp at ha; subst ha; exact h a l hd

theorem bumpHead_ok {a a' : Agent T} {rest : List (Slot T)} (h : HeapOK (.agent a :: rest))
    (ht : a'.time = a.time) : HeapOK (.agent a' :: rest) := by
  refine ⟨bumpHead_times _ _ (by simp [Slot.time, ht]) h.heap, ?_⟩
  have := h.one
  simpa using this

/-- Outcome of `delay_service` after `k` increments of the head's `blocked` counter. -/
theorem delayBump_spec (c : QCfg T) (s : QS T) (t : Option T) (k : Nat) (hk : c.kind ≠ .null)
    (hD : HeapOK s.departures) (hfin : agents s.departures ≠ [] → s.departures.head? ≠ some .infty) :
    ∃ s', delayService c (bumpHead s k) t = .ok s' ∧ DelayOut c s t k s' := by
  rcases bumpHead_cases s k with ⟨h1, h2⟩ | ⟨a, rest, h1, h2⟩
  · rw [h1]
    obtain ⟨s', g1, g2⟩ := delayService_spec c s t hk hD hfin
    refine ⟨s', g1, ?_⟩
    cases g2 with
    | none h => exact .none h
    | some a rest deps h => exact absurd h (h2 a)
  · rw [h2]
    rw [h1] at hD
    have hD' := bumpHead_ok (a' := { a with blocked := a.blocked + k }) hD rfl
    obtain ⟨s', g1, g2⟩ := delayService_spec c
      { s with departures := .agent { a with blocked := a.blocked + k } :: rest } t hk hD' (by simp)
    refine ⟨s', g1, ?_⟩
    cases g2 with
    | none h => simp at h
    | some b rest' deps e1 e2 e3 e4 e5 e6 =>
      simp only [List.head?_cons, Option.some.injEq, Slot.agent.injEq] at e1
      subst e1
      simp only [agents_agent] at e4
      refine DelayOut.some (k := k) a rest' deps (by rw [h1]; rfl) e2 (by rw [h1]; rfl) ?_ e5 e6
      rw [h1, agents_agent]
      exact ((List.perm_cons _).mp e4).cons a

theorem delayBump_fin (c : QCfg T) (s s' : QS T) (t : Option T) (k : Nat) (hk : c.kind ≠ .null)
    (hD : HeapOK s.departures) (h : delayService c (bumpHead s k) t = .ok s') :
    agents s.departures ≠ [] → s.departures.head? ≠ some .infty := by
  rcases bumpHead_cases s k with ⟨h1, h2⟩ | ⟨a, rest, h1, h2⟩
  · rw [h1] at h; exact delayService_fin c s s' t hk hD h
  · rw [h1]; simp

/-- Outcome of `set_active` on an inactive queue. -/
theorem setActive_spec (c : QCfg T) (s : QS T) (hk : c.kind ≠ .null) (hA : HeapOK s.arrivals)
    (ht : s.time = nextTime s) (hs : s.active = false) :
    ∃ arr ext ν act calls, AddOut c { s with active := true } ext ν act calls ∧ HeapOK arr ∧
      (agents arr).Perm (ext ++ agents s.arrivals) ∧
      setActive c s = .ok { s with
        arrivals := arr, nextCt := ν, active := act, arrCalls := calls
        time := min (headTime arr) (headTime s.departures)
        numTotal := s.numTotal + ext.length
        oArrivals := s.oArrivals + ext.length
        created := s.created ++ ext.map fun a => (a.id, a.time) } := by
  obtain ⟨arr, τ, ext, ν, act, calls, h1, h2, h3, h4, h5⟩ :=
    addArrival_spec c { s with active := true } hk hA
  refine ⟨arr, ext, ν, act, calls, h1, h2, h3, ?_⟩
  rw [← h4 ht]
  unfold setActive
  simp only [hs, Bool.false_eq_true, if_false, h5]

/-- Outcome of a handover. -/
theorem handover_spec (c : QCfg T) (s : QS T) (a : Agent T) (hk : c.kind ≠ .null)
    (hA : HeapOK s.arrivals) (ht : s.time = nextTime s) :
    ∃ arr, HeapOK arr ∧ (agents arr).Perm (a :: agents s.arrivals) ∧
      headTime arr = min a.time (headTime s.arrivals) ∧
      addArrivalAgent c s a = .ok { s with
        arrivals := arr
        time := min (headTime arr) (headTime s.departures)
        numTotal := s.numTotal + 1 } := by
  obtain ⟨arr, h1, h2, h3, h4⟩ := hA.push a
  refine ⟨arr, h2, h3, h4, ?_⟩
  unfold addArrivalAgent
  rw [if_neg hk, h1]
  simp only [bumpTime]
  congr
  exact bump_time_eq s arr ht (by rw [h4]; exact min_le_right _ _)

end Verif
