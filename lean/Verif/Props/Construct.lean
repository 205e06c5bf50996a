import Verif.Construct
import Verif.QueueInv2
import Verif.Props.QueueWit

/-! # Properties C122 (constructors of queues) and C123 (colours of queues) -/

set_option linter.unusedSectionVars false
set_option linter.unusedTactic false
set_option linter.unreachableTactic false

namespace Verif

/-! ## C122 -/

section

variable {T : Type*} [LinearOrder T] [OrderTop T] [Zero T] {arr svc : Nat → T → T} {kw : QKw T}

/-- C122: a queue class, called with `num_servers=v`, raises TypeError if `v` is neither an integer nor `numpy.infty`,
ValueError if `v` is an integer that is not positive, and otherwise (also if `num_servers` is not given) makes a queue.
This holds for all five classes, also for NullQueue, which does not use the number. -/
theorem C122_accepts (arr svc : Nat → T → T) (kw : QKw T) (cls : QClass) :
    (kw.numServers = some .other → cls.make arr svc kw = .error .typeError) ∧
    (∀ n : Int, n ≤ 0 → kw.numServers = some (.int n) → cls.make arr svc kw = .error .valueError) ∧
    ((kw.numServers = none ∨ kw.numServers = some .infty ∨ ∃ n : Int, 0 < n ∧ kw.numServers = some (.int n)) →
      ∃ c, cls.make arr svc kw = .ok c) := by
  refine ⟨fun h => ?_, fun n hn h => ?_, fun h => ?_⟩
  · cases cls <;> simp [QClass.make, serverInit, lossInit, nullInit, resourceInit, infoInit, h, checkServers]
  · cases cls <;> simp [QClass.make, serverInit, lossInit, nullInit, resourceInit, infoInit, h, checkServers, hn]
  · rcases h with h | h | ⟨n, hn, h⟩
    · cases cls <;> simp [QClass.make, serverInit, lossInit, nullInit, resourceInit, infoInit, h, checkServers]
    · cases cls <;> simp [QClass.make, serverInit, lossInit, nullInit, resourceInit, infoInit, h, checkServers]
    · cases cls <;> simp [QClass.make, serverInit, lossInit, nullInit, resourceInit, infoInit, h, checkServers,
        not_le.mpr hn]

/-- The number of servers a constructor was told: `nServers` goes before `num_servers`. -/
def told (dflt : Int) (kw : QKw T) : Option Cap :=
  match kw.nServers, kw.numServers with
  | some n, _ => some n
  | none, none => some (.fin dflt)
  | none, some (.int n) => some (.fin n)
  | none, some .infty => some .inf
  | none, some .other => none

/-- C122: the attributes of a new queue. -/
theorem C122_attributes {cls : QClass} {c : QCfg T} (h : cls.make arr svc kw = .ok c) :
    c.kind = (match cls with
      | .server => .server | .loss => .loss | .null => .null | .resource => .resource | .info => .loss) ∧
    some c.servers = (match cls with
      | .null => some (.fin 0) | .resource => told 10 kw | _ => told 1 kw) ∧
    c.edge = (match kw.edge, cls with
      | some e, _ => e | none, .null => ⟨0, 0, 0, 0⟩ | none, _ => ⟨0, 0, 0, 1⟩) ∧
    c.arrivalF = (match kw.arrivalF with | some f => f | none => arr) ∧
    c.serviceF = (match kw.serviceF with | some f => f | none => svc) ∧
    c.factory = (match kw.factory, cls with
      | some f, _ => f | none, .resource => .resource false false | none, _ => .plain) ∧
    c.activeCap = (match kw.activeCap with | some a => a | none => .inf) ∧
    c.deactiveT = (match kw.deactiveT with | some t => t | none => ⊤) ∧
    ((cls = .loss ∨ cls = .resource) → c.buffer = (match kw.qbuffer with | some b => b | none => .fin 0)) ∧
    (cls = .info → c.buffer = (match kw.qbuffer with | some b => b | none => .inf)) ∧
    (cls = .resource → c.maxServers = (match kw.numServers with
      | some (.int n) => .fin (2 * n) | some _ => .inf | none => .fin 20)) := by
  obtain ⟨num, ns, e, af, sf, fa, ac, dt, qb⟩ := kw
  have hs : ∀ v : PyNum, ∀ n, checkServers v = .ok n →
      (v = .infty ∧ n = .inf) ∨ ∃ m : Int, 0 < m ∧ v = .int m ∧ n = .fin m := by
    intro v n hv
    cases v with
    | other => simp [checkServers] at hv
    | infty => simp [checkServers] at hv; exact .inl ⟨rfl, hv.symm⟩
    | int m =>
      simp only [checkServers] at hv
      split at hv
      · simp at hv
      · rename_i hm; simp at hv; exact .inr ⟨m, by omega, rfl, hv.symm⟩
  have key : ∀ d : Int, 0 < d → ∀ n, checkServers (num.getD (.int d)) = .ok n →
      some (ns.getD n) = told d ⟨num, ns, e, af, sf, fa, ac, dt, qb⟩ := by
    intro d hd n hn
    cases ns with
    | some a => rfl
    | none =>
      cases num with
      | none =>
        rcases hs _ _ hn with ⟨h1, -⟩ | ⟨m, -, h2, h3⟩
        · cases h1
        · simp at h2; subst h3; subst h2; rfl
      | some v =>
        rcases hs _ _ hn with ⟨h1, h2⟩ | ⟨m, -, h2, h3⟩
        · simp at h1; subst h1; subst h2; rfl
        · simp at h2; subst h2; subst h3; rfl
  cases cls <;> simp only [QClass.make, lossInit, nullInit, resourceInit, infoInit, serverInit] at h
  all_goals
    cases hc : checkServers (num.getD (.int 1)) <;> cases hc' : checkServers (num.getD (.int 10)) <;>
      simp [hc, hc'] at h
    all_goals
      subst h
      refine ⟨rfl, ?_, ?_, ?_, ?_, ?_, ?_, ?_, ?_, ?_, ?_⟩
      all_goals first
        | exact key 1 (by decide) _ hc
        | exact key 10 (by decide) _ hc'
        | (intro h; clear h key hc hc' hs; rcases num with _ | _ | _ | _ <;> rfl)
        | rfl
        | (cases e <;> rfl)
        | (cases af <;> rfl)
        | (cases sf <;> rfl)
        | (cases fa <;> rfl)
        | (cases ac <;> rfl)
        | (cases dt <;> rfl)
        | (intro h; first | (rcases h with h | h <;> simp at h; done) | (simp at h; done) | (cases qb <;> rfl))

/-- C122, as far as it is true: without the keyword `nServers` every queue but a NullQueue has at least one server. -/
theorem C122_servers_partial {cls : QClass} {c : QCfg T} (h : cls.make arr svc kw = .ok c)
    (hn : kw.nServers = none) (hc : cls ≠ .null) :
    c.servers = .inf ∨ ∃ n : Int, 0 < n ∧ c.servers = .fin n := by
  have h2 := (C122_attributes h).2.1
  have ha := C122_accepts arr svc kw cls
  have hp : ∀ d : Int, 0 < d → some c.servers = told d kw → c.servers = .inf ∨ ∃ n : Int, 0 < n ∧ c.servers = .fin n := by
    intro d hd ht
    rw [told.eq_def, hn] at ht
    rcases hk : kw.numServers with _ | _ | _ | _ <;> rw [hk] at ht <;> simp at ht
    · exact .inr ⟨d, hd, ht⟩
    · rename_i n
      refine .inr ⟨n, ?_, ht⟩
      by_contra h0
      rw [ha.2.1 n (by omega) hk] at h
      cases h
    · exact .inl ht
  cases cls with
  | null => exact absurd rfl hc
  | resource => exact hp 10 (by decide) h2
  | server => exact hp 1 (by decide) h2
  | loss => exact hp 1 (by decide) h2
  | info => exact hp 1 (by decide) h2

/-- The number of servers is not changed. -/
def NoServers (_ : QS T) (op : QOp T) : Prop := ∀ n, op ≠ .setServers n

/-- C122: the keyword `nServers` is not checked. A QueueServer or LossQueue made with `nServers=z`, `z` not positive, serves
nobody, whatever is done with it, until `set_num_servers` is called. -/
theorem C122_no_servers {cls : QClass} {c : QCfg T} (h : cls.make arr svc kw = .ok c)
    (hc : cls = .server ∨ cls = .loss) {z : Int} (hz : z ≤ 0) (hn : kw.nServers = some (.fin z)) {b : Bool}
    {s : QS T} (hr : Reach c b NoServers s) :
    s.numDepartures = 0 ∧ s.svcCalls = 0 ∧ agents s.departures = [] := by
  have hat := C122_attributes h
  have hk : Simple c := by rcases hc with rfl | rfl <;> simp [Simple, hat.1]
  have hsv : c.servers = .fin z := by
    have h2 := hat.2.1
    rcases hc with rfl | rfl <;> simpa [told, hn] using h2
  suffices H : s.numServers = .fin z ∧ s.numDepartures = 0 ∧ s.svcCalls = 0 ∧ agents s.departures = [] from H.2
  induction hr with
  | init => exact ⟨hsv, rfl, rfl, rfl⟩
  | @step s s' op hr hok hrun ih =>
    obtain ⟨i1, i2, i3, i4⟩ := ih
    have hq := hr.base hk
    have hi := hr.inv hk
    cases opOut c s s' op hk hq hrun with
    | ev _ r h1 h2 =>
      cases h2 with
      | idle _ _ he => subst he; exact ⟨i1, i2, i3, i4⟩
      | dep a h3 _ _ =>
        rw [hq.okD.top_of_nil i4] at h3
        exact absurd h3 not_top_lt
      | arr a rest _ _ _ h3 _ =>
        rcases h3.served with ⟨h4, -⟩ | ⟨-, -, h5, h6, -⟩
        · have := hi.numSystem
          rw [i1] at h4
          simp only [Cap.le, decide_eq_true_eq] at h4
          omega
        · exact ⟨h3.numServers.trans i1, h3.numDepartures.trans i2, h5.trans i3, by rw [h6, i4]⟩
      | block a rest _ _ _ _ h3 _ =>
        exact ⟨h3.numServers.trans i1, h3.numDepartures.trans i2, h3.svcCalls.trans i3, by rw [h3.departures, i4]⟩
    | already => exact ⟨i1, i2, i3, i4⟩
    | act => exact ⟨i1, i2, i3, i4⟩
    | inact => exact ⟨i1, i2, i3, i4⟩
    | srv n => exact absurd rfl (hok n)
    | delay t kb _ h1 =>
      cases h1 with
      | none => exact ⟨i1, i2, i3, i4⟩
      | some a rest deps _ _ _ h2 => rw [i4] at h2; exact absurd h2.length_eq (by simp)
    | collect => exact ⟨i1, i2, i3, i4⟩
    | noteFull => exact ⟨i1, i2, i3, i4⟩
    | noteOpen => exact ⟨i1, i2, i3, i4⟩
    | clearData => exact ⟨i1, i2, i3, i4⟩
    | clear =>
      rw [clear_simple c s hk]
      exact ⟨i1, rfl, i3, rfl⟩
    | handover => exact ⟨i1, i2, i3, i4⟩

/-- C122: `qbuffer` is not checked. A LossQueue whose `num_servers + qbuffer` is not positive is at capacity when it is new, and
admits nobody, whatever is done with it, until `set_num_servers` is called. -/
theorem C122_no_room {c : QCfg T} (h : QClass.make arr svc kw .loss = .ok c) {n m : Int}
    (hn : kw.numServers = some (.int n)) (hs : kw.nServers = none) (hb : kw.qbuffer = some (.fin m)) {b : Bool} :
    (atCapacity c (QS.init c b) = true ↔ n + m ≤ 0) ∧
    (n + m ≤ 0 → ∀ s, Reach c b NoServers s → s.numArrivals = 0) := by
  have hat := C122_attributes h
  have hk : c.kind = .loss := hat.1
  have hS : Simple c := .inr hk
  have hsv : c.servers = .fin n := by simpa [told, hn, hs] using hat.2.1
  have hbf : c.buffer = .fin m := by
    have := hat.2.2.2.2.2.2.2.2.1 (.inl rfl)
    rw [hb] at this; exact this
  refine ⟨?_, fun hnm s hr => ?_⟩
  · simp only [atCapacity, hk, QS.init, hsv, hbf, Cap.add, Cap.lt]
    rw [Bool.not_eq_true', decide_eq_false_iff_not]
    omega
  suffices H : s.numServers = .fin n ∧ s.numArrivals = 0 from H.2
  induction hr with
  | init => exact ⟨hsv, rfl⟩
  | @step s s' op hr hok hrun ih =>
    obtain ⟨i1, i2⟩ := ih
    have hq := hr.base hS
    have hi := hr.inv hS
    cases opOut c s s' op hS hq hrun with
    | ev _ r h1 h2 =>
      cases h2 with
      | idle _ _ he => subst he; exact ⟨i1, i2⟩
      | dep a _ h3 _ => exact ⟨h3.numServers.trans i1, h3.numArrivals.trans i2⟩
      | arr a rest _ _ h4 h3 _ =>
        have := hi.numSystem
        have h4 := h4 hk
        rw [i1, hbf] at h4
        simp only [Cap.add, Cap.lt, decide_eq_true_eq] at h4
        omega
      | block a rest _ _ _ _ h3 _ => exact ⟨h3.numServers.trans i1, h3.numArrivals.trans i2⟩
    | already => exact ⟨i1, i2⟩
    | act => exact ⟨i1, i2⟩
    | inact => exact ⟨i1, i2⟩
    | srv n => exact absurd rfl (hok n)
    | delay t kb _ h1 => cases h1 <;> exact ⟨i1, i2⟩
    | collect => exact ⟨i1, i2⟩
    | noteFull => exact ⟨i1, i2⟩
    | noteOpen => exact ⟨i1, i2⟩
    | clearData => exact ⟨i1, i2⟩
    | clear =>
      rw [clear_simple c s hS]
      exact ⟨i1, rfl⟩
    | handover => exact ⟨i1, i2⟩

/-- C122: a new queue is empty, inactive and has no event; a NullQueue stays without servers. -/
theorem C122_new (c : QCfg T) (b : Bool) :
    let q := QS.init c b
    q.numServers = c.servers ∧ q.collectData = b ∧ q.numSystem = 0 ∧ q.numDepartures = 0 ∧ q.numArrivals = 0 ∧
      q.oArrivals = 0 ∧ q.active = false ∧ q.currentT = 0 ∧ q.time = ⊤ ∧ q.data = [] ∧ numberQueued c q = 0 ∧
      nextEventDescription c q = 0 ∧ nextEvent c q = .ok (q, none) := by
  refine ⟨rfl, rfl, rfl, rfl, rfl, rfl, rfl, rfl, rfl, rfl, ?_, ?_, ?_⟩
  · simp [numberQueued, QS.init]
  · simp [nextEventDescription, QS.init, headTime, Slot.time]
  · cases hk : c.kind <;>
      simp [nextEvent, hk, baseEvent, lossEvent, resourceEvent, QS.init, headTime, Slot.time]

end

theorem reachNo (c : QCfg ℕ∞) (b : Bool) (ops : List (QOp ℕ∞)) (hg : goodOps c b ops = true)
    (h : ∀ op ∈ ops, ∀ n, op ≠ .setServers n) : Reach c b NoServers (resOps c b ops) := by
  unfold goodOps at hg
  unfold resOps
  split at hg
  · rename_i s hs
    refine Reach.init.ofOps ops ?_ hs
    clear hs hg
    generalize QS.init c b = s0
    induction ops generalizing s0 with
    | nil => trivial
    | cons op ops ih =>
      exact ⟨h op (by simp), fun s' _ => ih (fun o ho => h o (by simp [ho])) s'⟩
  · simp at hg

/-- A queue without servers: five agents arrive, all of them wait. -/
def noServer : QKw ℕ∞ := { nServers := some (.fin 0), arrivalF := some fun _ t => t + 1, serviceF := some fun _ t => t + 1 }

/-- The queue made by a constructor that succeeds. -/
def madeOr (c : QCfg ℕ∞) : Except Err (QCfg ℕ∞) → QCfg ℕ∞
  | .ok c => c
  | .error _ => c

/-- C122: the condition on `nServers` cannot be dropped: `QueueServer(nServers=0)` is made, and of its five agents nobody
is served. -/
theorem C122_servers_not_checked :
    ∃ c : QCfg ℕ∞, QClass.make (fun _ t => t) (fun _ t => t) noServer .server = .ok c ∧
      ∃ s, Reach c false NoServers s ∧ s.numArrivals = 5 ∧ s.queue.length = 5 ∧ s.numDepartures = 0 := by
  refine ⟨_, rfl, ?_⟩
  set c := madeOr demo (QClass.make (fun _ t => t) (fun _ t => t) noServer .server)
  refine ⟨resOps c false [.setActive, .next, .next, .next, .next, .next], ?_, by decide +kernel, by decide +kernel,
    by decide +kernel⟩
  exact reachNo _ _ _ (by decide +kernel) (by simp)

/-- C122: with two servers and `qbuffer=-2` five agents come and five are turned away. -/
theorem C122_negative_buffer :
    ∃ c : QCfg ℕ∞, QClass.make (T := ℕ∞) (fun _ t => t) (fun _ t => t)
        { numServers := some (.int 2), qbuffer := some (.fin (-2)), arrivalF := some fun _ t => t + 1 } .loss = .ok c ∧
      ∃ s, Reach c false NoServers s ∧ s.numBlocked = 5 ∧ s.numArrivals = 0 := by
  refine ⟨_, rfl, ?_⟩
  set c := madeOr demo (QClass.make (T := ℕ∞) (fun _ t => t) (fun _ t => t)
    { numServers := some (.int 2), qbuffer := some (.fin (-2)), arrivalF := some fun _ t => t + 1 } .loss)
  refine ⟨resOps c false [.setActive, .next, .next, .next, .next, .next], ?_, by decide +kernel, by decide +kernel⟩
  exact reachNo _ _ _ (by decide +kernel) (by simp)

/-- `LossQueue(num_servers=2, qbuffer=3)` and `ResourceQueue()` are made, with 2 and 10 servers; `max_servers` is 20. -/
example : (madeOr demo (QClass.make (fun _ t => t) (fun _ t => t)
      { numServers := some (.int 2), qbuffer := some (.fin 3) } .loss)).servers = .fin 2 ∧
    (madeOr demo (QClass.make (fun _ t => t) (fun _ t => t) {} .resource)).servers = .fin 10 ∧
    (madeOr demo (QClass.make (fun _ t => t) (fun _ t => t) {} .resource)).maxServers = .fin 20 := by
  decide

/-! ## C123 -/

section

variable {K : Type*}

/-- Everything done to a state. -/
def colRun (s : ColState K) (ops : List (ColOp K)) : ColState K := ops.foldl ColOp.run s

/-- Only queues are made, and no class attribute `_default_colors` is passed as `colors`. -/
def Makes (ops : List (ColOp K)) : Prop :=
  ∀ op ∈ ops, ∃ cls d, op = .make cls d ∧ ∀ r, d = some r → ∃ n, r = .other n

/-- What the queues made with `colors=d` have as default for `key`, the first of them that has one. -/
def firstDefault (D : Dicts K) (d : DictRef) (key : ColKey) (ops : List (ColOp K)) : Option K :=
  ops.findSome? fun
    | .make cls (some r) => if r = d then D cls.dflt key else none
    | _ => none

theorem dflt_ne (cls : QClass) (n : Nat) : cls.dflt ≠ .other n := by cases cls <;> simp [QClass.dflt]

theorem colRun_makes (s : ColState K) (ops : List (ColOp K)) (h : Makes ops) :
    (∀ cls : QClass, (colRun s ops).dicts cls.dflt = s.dicts cls.dflt) ∧
    (∀ n key, (colRun s ops).dicts (.other n) key =
      (s.dicts (.other n) key).or (firstDefault s.dicts (.other n) key ops)) := by
  induction ops generalizing s with
  | nil => simp [colRun, firstDefault]
  | cons op ops ih =>
    obtain ⟨cls, d, rfl, hd⟩ := h op (by simp)
    have hrest : Makes ops := fun o ho => h o (by simp [ho])
    obtain ⟨i1, i2⟩ := ih (ColOp.run s (.make cls d)) hrest
    have e : colRun s (.make cls d :: ops) = colRun (ColOp.run s (.make cls d)) ops := rfl
    have hd0 : ∀ cls' : QClass, (ColOp.run s (.make cls d)).dicts cls'.dflt = s.dicts cls'.dflt := by
      intro cls'
      cases d with
      | none => rfl
      | some r =>
        obtain ⟨n, rfl⟩ := hd r rfl
        funext key
        simp [ColOp.run, newColours, dflt_ne]
    have hf : ∀ n key, firstDefault (ColOp.run s (.make cls d)).dicts (.other n) key ops =
        firstDefault s.dicts (.other n) key ops := by
      intro n key
      unfold firstDefault
      congr 1
      funext o
      rcases o with ⟨c', _ | r⟩ | _ <;> simp only
      rw [hd0 c']
    refine ⟨fun cls' => by rw [e, i1, hd0], fun n key => ?_⟩
    rw [e, i2, hf]
    cases d with
    | none => simp [ColOp.run, newColours, firstDefault]
    | some r =>
      obtain ⟨m, rfl⟩ := hd r rfl
      by_cases hm : m = n
      · subst hm
        simp only [ColOp.run, newColours, if_true, firstDefault, List.findSome?_cons]
        cases h1 : s.dicts (.other m) key <;> cases h2 : s.dicts cls.dflt key <;> simp
      · simp [ColOp.run, newColours, firstDefault, Ne.symm hm, hm]

theorem colRun_queues (s : ColState K) (ops : List (ColOp K)) (h : Makes ops) :
    (colRun s ops).queues = s.queues ++ ops.filterMap (fun
      | .make cls none => some cls.dflt
      | .make _ (some r) => some r
      | .assign _ _ _ => none) := by
  induction ops generalizing s with
  | nil => simp [colRun]
  | cons op ops ih =>
    obtain ⟨cls, d, rfl, hd⟩ := h op (by simp)
    have e : colRun s (.make cls d :: ops) = colRun (ColOp.run s (.make cls d)) ops := rfl
    rw [e, ih _ fun o ho => h o (by simp [ho])]
    cases d <;> simp [ColOp.run, newColours]

/-- C123: the colours of queue number `q` after any number of queues have been made: the defaults of its class if it was
made without `colors`; else what the dict had, completed by the defaults of the first queue made with this dict that
has a default for the key. -/
theorem C123_colours (D : Dicts K) (ops : List (ColOp K)) (h : Makes ops) (q : Nat) (cls : QClass) (key : ColKey) :
    (ops[q]? = some (.make cls none) → (colRun ⟨D, []⟩ ops).colour q key = D cls.dflt key) ∧
    (∀ n, ops[q]? = some (.make cls (some (.other n))) → (colRun ⟨D, []⟩ ops).colour q key =
      (D (.other n) key).or (firstDefault D (.other n) key ops)) := by
  have hq := colRun_queues ⟨D, []⟩ ops h
  obtain ⟨h1, h2⟩ := colRun_makes ⟨D, []⟩ ops h
  have hmap : ops.filterMap (fun
      | ColOp.make cls none => some cls.dflt
      | .make _ (some r) => some r
      | .assign _ _ _ => none) = ops.map (fun
      | ColOp.make cls none => cls.dflt
      | .make _ (some r) => r
      | .assign _ _ _ => .other 0) := by
    rw [← List.filterMap_eq_map]
    apply List.filterMap_congr
    intro o ho
    obtain ⟨c', d', rfl, -⟩ := h o ho
    cases d' <;> rfl
  rw [hmap] at hq
  refine ⟨fun hg => ?_, fun n hg => ?_⟩
  · simp only [ColState.colour, hq, List.nil_append, List.getElem?_map, hg, Option.map_some]
    rw [h1]
  · simp only [ColState.colour, hq, List.nil_append, List.getElem?_map, hg, Option.map_some]
    rw [h2]

/-- C123 as one would have it: the colours of a queue are those it was given, completed by the defaults of its class. True if
all queues made with the same dict have the same default for the key. -/
theorem C123_completed_partial (D : Dicts K) (ops : List (ColOp K)) (h : Makes ops) (q : Nat) (cls : QClass)
    (key : ColKey) (n : Nat) (hq : ops[q]? = some (.make cls (some (.other n))))
    (hs : ∀ cls', ColOp.make cls' (some (.other n)) ∈ ops → D cls'.dflt key = D cls.dflt key) :
    (colRun ⟨D, []⟩ ops).colour q key = (D (.other n) key).or (D cls.dflt key) := by
  rw [(C123_colours D ops h q cls key).2 n hq]
  congr 1
  have hm : ColOp.make cls (some (.other n)) ∈ ops := List.mem_of_getElem? hq
  unfold firstDefault
  cases hv : D cls.dflt key with
  | none =>
    rw [List.findSome?_eq_none_iff]
    intro o ho
    obtain ⟨c', d', rfl, -⟩ := h o ho
    rcases d' with _ | r
    · rfl
    · simp only
      split
      · rename_i hr; subst hr; rw [hs c' ho, hv]
      · rfl
  | some v =>
    have hall : ∀ o ∈ ops, (match o with
        | ColOp.make cls (some r) => if r = .other n then D cls.dflt key else none
        | _ => none) = none ∨ (match o with
        | ColOp.make cls (some r) => if r = .other n then D cls.dflt key else none
        | _ => none) = some v := by
      intro o ho
      obtain ⟨c', d', rfl, -⟩ := h o ho
      rcases d' with _ | r
      · exact .inl rfl
      · simp only
        split
        · rename_i hr; subst hr; exact .inr (by rw [hs c' ho, hv])
        · exact .inl rfl
    cases hf : ops.findSome? (fun
        | ColOp.make cls (some r) => if r = .other n then D cls.dflt key else none
        | _ => none) with
    | none =>
      rw [List.findSome?_eq_none_iff] at hf
      have := hf _ hm
      simp [hv] at this
    | some w =>
      obtain ⟨o, ho, hw⟩ := List.exists_of_findSome?_eq_some hf
      rcases hall o ho with h0 | h0
      · exact absurd (hw.symm.trans h0) (by simp)
      · exact hw.symm.trans h0

/-- C123: making queues never changes `_default_colors` of a class, and never changes a colour that a dict has. -/
theorem C123_kept (D : Dicts K) (ops : List (ColOp K)) (h : Makes ops) :
    (∀ cls : QClass, (colRun ⟨D, []⟩ ops).dicts cls.dflt = D cls.dflt) ∧
    (∀ n key v, D (.other n) key = some v → (colRun ⟨D, []⟩ ops).dicts (.other n) key = some v) := by
  obtain ⟨h1, h2⟩ := colRun_makes ⟨D, []⟩ ops h
  exact ⟨h1, fun n key v hv => by rw [h2]; simp [hv]⟩

/-- C123: an assignment to `q.colors[key]` is seen at exactly the queues whose dict is the same object. -/
theorem C123_assign (s : ColState K) (q : Nat) (d : DictRef) (hq : s.queues[q]? = some d) (key : ColKey) (v : K)
    (q' : Nat) (key' : ColKey) :
    (ColOp.run s (.assign q key v)).colour q' key' =
      if s.queues[q']? = some d ∧ key' = key then some v else s.colour q' key' := by
  simp only [ColOp.run, hq, ColState.colour]
  cases h : s.queues[q']? with
  | none => simp
  | some d' =>
    simp only [Dicts.set, Option.some.injEq]

/-- C123: in a network whose `q_args` have no `colors`, a queue on an edge of type `et` has the four colours of
`default_q_colors[et]` (those of type 1 if there is none), whatever its class: `DQ` are these dicts. -/
theorem C123_network (D : Dicts K) (DQ : Nat → ColKey → K)
    (hD : ∀ n < 5, ∀ key, key ≠ .vertexPen → D (.other n) key = some (DQ n key))
    (qs : List (QClass × Int)) (q : Nat) (cls : QClass) (et : Int) (hq : qs[q]? = some (cls, et)) (key : ColKey)
    (hk : key ≠ .vertexPen) :
    (colRun ⟨D, []⟩ (qs.map fun p => .make p.1 (some (networkDict p.2)))).colour q key =
      some (DQ (if 0 ≤ et ∧ et ≤ 4 then et.toNat else 1) key) := by
  have hnd : ∀ et : Int, networkDict et = .other (if 0 ≤ et ∧ et ≤ 4 then et.toNat else 1) := by
    intro et; unfold networkDict; split <;> rfl
  have hM : Makes (K := K) (qs.map fun p => .make p.1 (some (networkDict p.2))) := by
    intro op hop
    obtain ⟨p, -, rfl⟩ := List.mem_map.mp hop
    exact ⟨_, _, rfl, fun r hr => ⟨_, (Option.some.inj hr).symm.trans (hnd p.2)⟩⟩
  have hg : (qs.map fun p => ColOp.make (K := K) p.1 (some (networkDict p.2)))[q]? =
      some (.make cls (some (.other (if 0 ≤ et ∧ et ≤ 4 then et.toNat else 1)))) := by
    rw [List.getElem?_map, hq, Option.map_some, hnd]
  rw [(C123_colours D _ hM q cls key).2 _ hg, hD _ _ key hk, Option.some_or]
  split <;> omega

end

/-- The defaults of the library, by the red component of each colour in thousandths (queue_servers.py lines 271-276, 818-823,
901-906; queue_extentions.py lines 81-86); all other dicts are empty. -/
def libDicts : Dicts Nat
  | .ofServer, .edgeLoop => some 0
  | .ofServer, .edge => some 900
  | .ofServer, .vertexFill => some 1000
  | .ofServer, .vertex => some 0
  | .ofLoss, .edgeLoop => some 0
  | .ofLoss, .edge => some 700
  | .ofLoss, .vertexFill => some 1000
  | .ofLoss, .vertex => some 133
  | .ofNull, .edgeLoop => some 0
  | .ofNull, .edge => some 700
  | .ofNull, .vertexFill => some 1000
  | .ofNull, .vertex => some 500
  | .ofResource, .edgeLoop => some 700
  | .ofResource, .edge => some 700
  | .ofResource, .vertexFill => some 1000
  | .ofResource, .vertexPen => some 0
  | _, _ => none

/-- C123: the condition cannot be dropped: of a LossQueue and a QueueServer made with the same empty dict the second has the
colours of the first. -/
theorem C123_shared_dict :
    (colRun ⟨libDicts, []⟩ [.make .loss (some (.other 0)), .make .server (some (.other 0))]).colour 1 .edge = some 700 ∧
    libDicts QClass.server.dflt .edge = some 900 := by
  decide

/-- C123: all queues of a class that were made without `colors` have the same dict, the class attribute: an assignment to the
colours of one of them changes the others, and the queues of this class made later. -/
theorem C123_class_dict :
    let s := colRun ⟨libDicts, []⟩ [.make .server none, .make .server none, .assign 0 .edge 5, .make .server none,
      .make .server (some (.other 0))]
    s.colour 0 .edge = some 5 ∧ s.colour 1 .edge = some 5 ∧ s.colour 2 .edge = some 5 ∧ s.colour 3 .edge = some 5 := by
  decide

/-- C123: the dicts of defaults: each class has its own, only InfoQueue has that of LossQueue. -/
theorem C123_defaults (a b : QClass) : a.dflt = b.dflt ↔
    a = b ∨ (a = .info ∧ b = .loss) ∨ (a = .loss ∧ b = .info) := by
  cases a <;> cases b <;> simp [QClass.dflt]

/-- Four queues with their own dicts meet the condition of `C123_completed_partial`. -/
example : Makes (K := Nat) [.make .loss (some (.other 0)), .make .server (some (.other 1)), .make .resource none,
      .make .info (some (.other 0))] ∧
    ∀ cls', ColOp.make (K := Nat) cls' (some (.other 0)) ∈ [.make .loss (some (.other 0)), .make .server (some (.other 1)),
      .make .resource none, .make .info (some (.other 0))] → libDicts cls'.dflt .edge = libDicts QClass.loss.dflt .edge := by
  constructor
  · intro op hop
    simp only [List.mem_cons, List.not_mem_nil, or_false] at hop
    rcases hop with rfl | rfl | rfl | rfl
    · exact ⟨_, _, rfl, fun r hr => ⟨0, (Option.some.inj hr).symm⟩⟩
    · exact ⟨_, _, rfl, fun r hr => ⟨1, (Option.some.inj hr).symm⟩⟩
    · exact ⟨_, _, rfl, fun r hr => by cases hr⟩
    · exact ⟨_, _, rfl, fun r hr => ⟨0, (Option.some.inj hr).symm⟩⟩
  · intro cls' h
    simp at h
    rcases h with rfl | rfl <;> rfl

end Verif
