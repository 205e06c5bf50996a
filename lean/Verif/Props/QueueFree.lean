import Verif.Props.QueueStream

/-!
# A queue with a server for everybody (C121): the path

`QueueServer.next_event`, queue_servers.py lines 541-588, with `num_servers` infinite, in a network where nobody moves into
the queue and nobody is kept from leaving it.
-/

set_option linter.unusedSectionVars false
set_option linter.unusedVariables false

namespace Verif.NetSpec

variable {T R : Type*} [LinearOrder T] [OrderTop T] [Zero T] [LinearOrder R] [Add R]

/-- The time of the `j`-th agent from outside (the first is number 0). -/
def comes (c : QCfg T) (j : Nat) : T := drawn c.arrivalF 0 0 (j + 1)

/-- The time at which the service of the `j`-th agent from outside ends, if it is served on arrival. -/
def leaves (c : QCfg T) (j : Nat) : T := c.serviceF j (comes c j)

/-- Everybody who came from outside was served on arrival, and left when the service ended; `left` are the times at which
agents left. -/
structure Free (c : QCfg T) (s : QS T) (left : List T) : Prop where
  srv : s.numServers = .inf
  queue : s.queue = []
  calls : s.svcCalls = s.numArrivals
  sched : s.oArrivals = s.numArrivals ∧ s.active = false ∧ agents s.arrivals = [] ∨
    s.oArrivals = s.numArrivals + 1 ∧ ∃ a, agents s.arrivals = [a] ∧ a.time = comes c s.numArrivals
  act : s.active = true → s.arrCalls = s.oArrivals ∧ s.nextCt = drawn c.arrivalF 0 0 s.oArrivals
  out : ((agents s.departures).map (·.time) ++ left).Perm ((List.range s.numArrivals).map (leaves c))
  past : ∀ x ∈ left, x ≤ s.currentT
  came : ∀ j < s.numArrivals, comes c j ≤ s.currentT
  num : s.numDepartures = left.length
  sys : s.numSystem = (agents s.departures).length

/-- The operations that do not disturb the queue. -/
def FreeOp : QOp T → Prop
  | .next | .setInactive | .note | .collect _ | .clearData => True
  | _ => False

theorem Free.start {c : QCfg T} {b : Bool} (hk : Simple c) (hs : c.servers = .inf) {s : QS T}
    (h : setActive c (QS.init c b) = .ok s) : Free c s [] := by
  have hbase : QBase (QS.init c b) := by
    simpa using (Reach.init (c := c) (b := b) (ok := QueueSpec.anyOp)).base hk
  have ho := opOut c (QS.init c b) s .setActive hk hbase h
  cases ho with
  | already h' => simp [QS.init] at h'
  | act arr ext ν act calls g0 g1 g2 g3 =>
    cases g1 with
    | early g => simp [QS.init] at g
    | off g4 g5 =>
      refine ⟨hs, rfl, rfl, .inl ⟨rfl, rfl, ?_⟩, by simp, by simp [QS.init], by simp, by simp [QS.init], rfl, by simp [QS.init]⟩
      simpa [QS.init] using g3
    | new g4 g5 =>
      refine ⟨hs, rfl, rfl, .inr ⟨rfl, ?_⟩, fun _ => ⟨rfl, rfl⟩, by simp [QS.init], by simp, by simp [QS.init], rfl,
        by simp [QS.init]⟩
      refine ⟨newAgent c { QS.init c b with active := true }, ?_, rfl⟩
      have g3 : (agents arr).Perm [newAgent c { QS.init c b with active := true }] := by simpa [QS.init] using g3
      exact List.perm_singleton.mp g3

theorem Free.step {c : QCfg T} {s s' : QS T} {left : List T} {op : QOp T} (hb : QBase s) (hcl : ClockInv s)
    (h : Free c s left) (hp : FreeOp op) (ho : OpOut c s op s') : ∃ left', Free c s' left' := by
  cases ho with
  | ev s' r _ h1 =>
    cases h1 with
    | idle _ _ h2 => subst h2; exact ⟨left, h⟩
    | dep a hlt h2 _ =>
      have hnow : s.currentT ≤ a.time := by
        rw [h2.time_eq]; exact (hcl.nextTime_ge hb).trans (min_le_right _ _)
      obtain ⟨deps, g1, g2, g3⟩ := h2.served
      rcases g3 with ⟨b, rest, k1, -⟩ | ⟨-, k2, k3, k4, -⟩
      · rw [h.queue] at k1; simp at k1
      refine ⟨a.time :: left, by rw [h2.numServers, h.srv], by rw [k2, h.queue], by rw [k3, h2.numArrivals, h.calls], ?_, ?_,
        ?_, ?_, ?_, ?_, ?_⟩
      · rw [h2.oArrivals, h2.numArrivals, h2.active, h2.arrivals]; exact h.sched
      · rw [h2.active, h2.arrCalls, h2.oArrivals, h2.nextCt]; exact h.act
      · rw [h2.numArrivals, k4]
        refine List.perm_middle.trans ?_
        have := (g1.map (·.time)).append_right left
        exact this.symm.trans h.out
      · rw [h2.currentT]
        intro x hx
        rcases List.mem_cons.mp hx with rfl | hx
        · exact le_rfl
        · exact (h.past x hx).trans hnow
      · rw [h2.currentT, h2.numArrivals]; exact fun j hj => (h.came j hj).trans hnow
      · rw [h2.numDepartures, h.num]; rfl
      · rw [h2.numSystem, h.sys, k4, g1.length_eq]; simp
    | arr a rest hle hfin _ h2 _ =>
      have hnow : s.currentT ≤ a.time := by
        rw [h2.time_eq]; exact (hcl.nextTime_ge hb).trans (min_le_left _ _)
      rcases h.sched with ⟨-, -, e⟩ | ⟨e1, x, e2, e3⟩
      · have := h2.perm; rw [e] at this; simp at this
      have hp := h2.perm
      rw [e2] at hp
      have hp := List.perm_singleton.mp hp.symm
      simp only [List.cons.injEq] at hp
      obtain ⟨rfl, hrest⟩ := hp
      rcases h2.served with ⟨-, k2, k3, k4, -⟩ | ⟨k1, -⟩
      swap
      · rw [h.srv] at k1; simp [Cap.le] at k1
      obtain ⟨ext, x1, x2, x3, -⟩ := h2.ext
      rw [hrest, List.append_nil] at x2
      refine ⟨left, by rw [h2.numServers, h.srv], by rw [k2, h.queue], by rw [k3, h2.numArrivals, h.calls], ?_, ?_, ?_, ?_, ?_,
        ?_, ?_⟩
      · rw [h2.numArrivals, x3, e1]
        generalize s'.nextCt = ν at x1
        generalize s'.active = α at x1 ⊢
        generalize s'.arrCalls = n at x1
        cases x1 with
        | inactive g => left; exact ⟨rfl, rfl, List.perm_nil.mp x2⟩
        | early g1 g2 =>
          rw [(h.act g1).2, e1, e3] at g2
          exact absurd g2 (lt_irrefl _)
        | off g1 g2 g3 => left; exact ⟨rfl, rfl, List.perm_nil.mp x2⟩
        | new g1 g2 g3 =>
          right
          refine ⟨rfl, _, List.perm_singleton.mp x2, ?_⟩
          simp only [comes, drawn]
          rw [(h.act g1).1, e1, e3, Nat.zero_add]; rfl
      · rw [x3]
        generalize s'.nextCt = ν at x1 ⊢
        generalize s'.active = α at x1 ⊢
        generalize s'.arrCalls = n at x1 ⊢
        cases x1 with
        | inactive g => simp
        | early g1 g2 => exact fun _ => h.act g1
        | off g1 g2 g3 => simp
        | new g1 g2 g3 =>
          intro _
          refine ⟨by rw [(h.act g1).1]; rfl, ?_⟩
          simp only [List.length_singleton, drawn]
          rw [(h.act g1).1, e3, e1, Nat.zero_add]; rfl
      · rw [h2.numArrivals, List.range_succ, List.map_append]
        refine ((k4.map (·.time)).append_right left).trans ?_
        simp only [List.map_cons, List.cons_append, List.map_nil]
        rw [h.calls, e3]
        exact (h.out.cons _).trans (List.perm_append_singleton _ _).symm
      · rw [h2.currentT]; exact fun y hy => (h.past y hy).trans hnow
      · rw [h2.currentT, h2.numArrivals]
        intro j hj
        rcases Nat.lt_succ_iff_lt_or_eq.mp hj with hj | rfl
        · exact (h.came j hj).trans hnow
        · exact e3.ge
      · rw [h2.numDepartures, h.num]
      · rw [h2.numSystem, h.sys, k4.length_eq]; simp
    | block a rest hle hfin _ hc h2 _ => rw [h.srv] at hc; simp [Cap.add, Cap.lt] at hc
  | already => exact hp.elim
  | act => exact hp.elim
  | inact =>
    refine ⟨left, h.srv, h.queue, h.calls, ?_, by simp, h.out, h.past, h.came, h.num, h.sys⟩
    rcases h.sched with ⟨g1, -, g2⟩ | g
    · exact .inl ⟨g1, rfl, g2⟩
    · exact .inr g
  | srv n s' r h1 => exact hp.elim
  | delay t kb s' h1 => exact hp.elim
  | collect => exact ⟨left, h.srv, h.queue, h.calls, h.sched, h.act, h.out, h.past, h.came, h.num, h.sys⟩
  | noteFull => exact ⟨left, h.srv, h.queue, h.calls, h.sched, h.act, h.out, h.past, h.came, h.num, h.sys⟩
  | noteOpen => exact ⟨left, h⟩
  | clearData => exact ⟨left, h.srv, h.queue, h.calls, h.sched, h.act, h.out, h.past, h.came, h.num, h.sys⟩
  | clear => exact hp.elim
  | handover => exact hp.elim

/-- Queue `k` has infinitely many servers; no queue leads to the vertex where it begins, and no `LossQueue` or
`ResourceQueue` begins at the vertex where it ends. -/
structure Alone (N : NetCfg T R) (k : Nat) : Prop where
  lt : k < N.nE
  simple : Simple (N.qc k)
  servers : (N.qc k).servers = .inf
  source : ∀ j < N.nE, k ∉ N.outEdges (N.qc j).edge.tgt
  open_ : ∀ e ∈ N.outEdges (N.qc k).edge.tgt, (N.qc e).kind = .server ∨ (N.qc e).kind = .null

theorem dest_mem {N : NetCfg T R} (hN : N.OkA) {n : Net T R} (hp : ∀ v, (n.probs v).length = (N.outEdges v).length) {k : Nat}
    (hk : k < N.nE) (hs : (N.qc k).kind ≠ .null) {a : Agent T} {e d : Nat} (h : n.destination N k a = .ok (e, d)) :
    e ∈ N.outEdges (N.qc k).edge.tgt := by
  obtain ⟨e', d', h1, h2⟩ := destination_okA hN hp hk hs a
  rw [h] at h1
  simp only [Except.ok.injEq, Prod.mk.injEq] at h1
  exact h1.1 ▸ h2

theorem StepOutA.free {N : NetCfg T R} (hN : N.OkA) {b : Nat → Bool} {n n' : Net T R} (hi : NetInvA N b n)
    (h : StepOutA N n n') {j : Nat} (hj : Alone N j) : Ops (N.qc j) (fun _ q => FreeOp q) (n.qs j) (n'.qs j) := by
  have hs := hj.simple
  have off : ∀ (f : Bool) (s : QS T), Ops (N.qc j) (fun _ q => FreeOp q) s (if f then setInactive s else s) := by
    intro f s
    cases f with
    | true => exact Ops.one .setInactive trivial rfl
    | false => exact .refl
  cases h with
  | empty h0 h1 => rw [h1]; exact .refl
  | idle k x hp h1 h2 h3 h4 h5 h6 h7 => rw [h7]; exact .refl
  | arrive k s' h1 h2 h3 h4 h5 h6 h7 h8 h9 h10 =>
    rw [h8]
    by_cases hjk : j = k
    · subst hjk
      rw [Function.update_self]
      refine (off ((n.qs j).active && Net.maxed N n) _).trans (Ops.one .next trivial (by simp only [QOp.run, h7.ev]))
    · rw [Function.update_of_ne hjk]; exact .refl
  | block k e a s1 d h1 h2 h3 h4 h5 h6 h7 h8 h9 h10 h11 h12 h13 h14 h15 =>
    rw [h13]
    by_cases hjk : j = k
    · subst hjk
      rcases hj.open_ e (dest_mem hN hi.probs h1 h5 h9) with h | h <;> rw [h] at h10 <;> simp at h10
    · rw [Function.update_of_ne hjk]
      by_cases hje : j = e
      · subst hje
        rw [Function.update_self]
        exact Ops.one .note trivial (by simp [QOp.run, h11])
      · rw [Function.update_of_ne hje]; exact .refl
  | move k e a a' s1 s2 d h1 h2 h3 h4 h5 h6 h7 h8 h9 h10 h11 h12 h13 h14 =>
    rw [h12]
    have hje : j ≠ e := fun he => hj.source k h1 (he ▸ dest_mem hN hi.probs h1 h4 h8)
    rw [Function.update_of_ne hje]
    by_cases hjk : j = k
    · subst hjk; rw [Function.update_self]; exact Ops.one .next trivial (by simp [QOp.run, h10.ev])
    · rw [Function.update_of_ne hjk]; exact .refl

/-- `n` is reached from `n0` without `initialize`, without `clear` and without `set_num_servers` on queue `k`. -/
inductive LaterFree (N : NetCfg T R) (k : Nat) (n0 : Net T R) : Net T R → Prop
  | refl : LaterFree N k n0 n0
  | step {n n' : Net T R} (op : NetOp R) : LaterFree N k n0 n → op.Allowed N n → op ≠ .clear →
      (∀ pick a, op ≠ .initialise pick a) → (∀ m, op ≠ .setServers k m) → op.run N n = .ok n' → LaterFree N k n0 n'

theorem LaterFree.later {N : NetCfg T R} {k : Nat} {n0 n : Net T R} (h : LaterFree N k n0 n) : Later N n0 n := by
  induction h with
  | refl => exact .refl
  | step op _ ha h1 h2 _ hr ih => exact ih.step op ha h1 h2 hr

theorem NetOp.free {N : NetCfg T R} (hN : N.OkA) {b : Nat → Bool} {n n' : Net T R} (hi : NetInvA N b n) (op : NetOp R) {k : Nat}
    (hk : Alone N k) (h1 : op ≠ .clear) (h2 : ∀ pick a, op ≠ .initialise pick a) (h3 : ∀ m, op ≠ .setServers k m)
    (hr : op.run N n = .ok n') : Ops (N.qc k) (fun _ q => FreeOp q) (n.qs k) (n'.qs k) := by
  cases op with
  | step =>
    rw [NetOp.run, simulate_one] at hr
    split at hr
    · rename_i hin
      rcases step_specA hN hi hin with ⟨n2, g1, g2, -⟩ | ⟨g1, -⟩
      · rw [g1] at hr; simp only [Except.ok.injEq] at hr; subst hr
        exact StepOutA.free hN hi g2 hk
      · rw [g1] at hr; simp at hr
    · simp at hr
  | initialise pick a => exact absurd rfl (h2 pick a)
  | clear => exact absurd rfl h1
  | collect x ks =>
    simp only [NetOp.run, Except.ok.injEq] at hr; subst hr
    exact collect_ops ks n fun h s => trivial
  | clearData ks =>
    simp only [NetOp.run, Except.ok.injEq] at hr; subst hr
    exact clearData_ops ks n fun h s => trivial
  | setProbs p => simp only [NetOp.run, Except.ok.injEq] at hr; subst hr; exact .refl
  | setBlocking bas => simp only [NetOp.run, Except.ok.injEq] at hr; subst hr; exact .refl
  | copy =>
    obtain ⟨h', g1, -⟩ := hi.copy hN
    simp only [NetOp.run, g1, Except.ok.injEq] at hr
    subst hr; exact .refl
  | setServers e m =>
    simp only [NetOp.run, Except.ok.injEq] at hr; subst hr
    by_cases hke : k = e
    · subst hke; exact absurd rfl (h3 m)
    · simp only [Net.setQ, Function.update_of_ne hke]; exact .refl
  | setInactive e =>
    simp only [NetOp.run, Except.ok.injEq] at hr; subst hr
    by_cases hke : k = e
    · subst hke
      simp only [Net.setQ, Function.update_self]
      exact Ops.one .setInactive trivial rfl
    · simp only [Net.setQ, Function.update_of_ne hke]; exact .refl

theorem LaterFree.free {N : NetCfg T R} (hN : N.OkA) {b : Nat → Bool} {n0 n : Net T R} (h0 : NetReach N b n0) {k : Nat}
    (hk : Alone N k) (hf : ∃ left, Free (N.qc k) (n0.qs k) left) (h : LaterFree N k n0 n) :
    ∃ left, Free (N.qc k) (n.qs k) left := by
  induction h with
  | refl => exact hf
  | @step n n' op h1 ha hc hi hsrv hr ih =>
    have hh := h1.later.reach h0
    have hops := NetOp.free hN (hh.invA hN) op hk hc hi hsrv hr
    have hq := reach_mono (hh.hist.queue hN hk.lt hk.simple.ne_null) (P' := ClockOk) fun _ _ h => h.clock
    clear hr
    generalize n'.qs k = s' at hops ⊢
    suffices (∃ left, Free (N.qc k) s' left) ∧ Reach (N.qc k) (b k) ClockOk s' from this.1
    induction hops with
    | refl => exact ⟨ih, hq⟩
    | step q _ hp hq ihq =>
      obtain ⟨⟨left, hl⟩, hreach⟩ := ihq
      refine ⟨hl.step (hreach.base hk.simple) (hreach.clock hk.simple (hN.fwd k hk.lt) fun _ _ h => h) hp
        (opOut _ _ _ q hk.simple (hreach.base hk.simple) hq), hreach.step q ?_ hq⟩
      cases q <;> trivial

/-- C121, the path: on a new network `initialize(queues=l)` was called with `k` among the queues, then came operations other
than `initialize`, `clear` and `set_num_servers` on queue `k`. Queue `k` has infinitely many servers, nobody moves into it
and nobody is kept from leaving it. Between events, at time `u`, those agents from outside have left it whose service,
begun on arrival, has ended, and those are in it who have come and whose service has not ended. -/
theorem C121_path {N : NetCfg T R} (hN : N.OkA) {b : Nat → Bool} {bas : Bool} {probs : Nat → List R}
    (hp : ∀ v, (probs v).length = (N.outEdges v).length) {pick : List Nat → Nat → List Nat} {l : List Nat} (hl : l.Nodup)
    (hm : ∀ m, N.maxAgents = .fin m → (l.length : Int) ≤ m) {n0 n : Net T R}
    (h0 : (Net.init N b bas probs).initialise N pick (.queues l) = .ok n0) {k : Nat} (hk : k ∈ l)
    (ht : (N.qc k).edge.etype ≠ 0) (ha : Alone N k) (h : LaterFree N k n0 n) (hact : (n.qs k).active = true) {u : T}
    (hu : (n.qs k).currentT ≤ u) (hu' : u < (n.qs k).time) :
    ((n.qs k).numDepartures = (List.range (n.qs k).numArrivals).countP (fun j => decide (leaves (N.qc k) j ≤ u))) ∧
    ((n.qs k).numSystem = ((List.range (n.qs k).numArrivals).countP (fun j => decide (u < leaves (N.qc k) j)) : Nat)) ∧
    ∀ j, comes (N.qc k) j ≤ u ↔ j < (n.qs k).numArrivals := by
  obtain ⟨-, hr, hact0⟩ := started_active hN hp hl hm h0 hk ht
  obtain ⟨left, hf⟩ := h.free hN hr ha ⟨_, Free.start ha.simple ha.servers hact0⟩
  have hi := (h.later.reach hr).invA hN
  have hb := (hi.good k ha.lt).base
  rw [hb.time] at hu'
  have hdep : ∀ a ∈ agents (n.qs k).departures, u < a.time := fun a hx =>
    (hu'.trans_le (min_le_right _ _)).trans_le (hb.okD.le a hx)
  have harr : ∀ a ∈ agents (n.qs k).arrivals, u < a.time := fun a hx =>
    (hu'.trans_le (min_le_left _ _)).trans_le (hb.okA.le a hx)
  have count : ∀ p : T → Bool, (List.range (n.qs k).numArrivals).countP (fun j => p (leaves (N.qc k) j)) =
      ((agents (n.qs k).departures).map (·.time)).countP p + left.countP p := by
    intro p
    have := hf.out.countP_eq p
    rw [List.countP_append, List.countP_map (l := List.range _)] at this
    exact this.symm
  refine ⟨?_, ?_, fun j => ⟨fun hj => ?_, fun hj => (hf.came j hj).trans hu⟩⟩
  · rw [count fun x => decide (x ≤ u), hf.num, List.countP_eq_zero.mpr, Nat.zero_add, List.countP_eq_length.mpr]
    · intro x hx; simpa using (hf.past x hx).trans hu
    · intro x hx
      obtain ⟨a, ha, rfl⟩ := List.mem_map.mp hx
      simpa using hdep a ha
  · rw [count fun x => decide (u < x), hf.sys, List.countP_eq_length.mpr, List.countP_eq_zero.mpr]
    · simp
    · intro x hx; simpa using (hf.past x hx).trans hu
    · intro x hx
      obtain ⟨a, ha, rfl⟩ := List.mem_map.mp hx
      simpa using hdep a ha
  · rcases hf.sched with ⟨-, h1, -⟩ | ⟨-, a, h1, h2⟩
    · simp [hact] at h1
    · by_contra hlt
      have := drawn_mono (hN.fwd k ha.lt).1 0 0 (a := (n.qs k).numArrivals + 1) (b := j + 1) (by omega)
      have h3 := harr a (by rw [h1]; simp)
      rw [h2] at h3
      exact absurd (this.trans hj) (not_le.mpr h3)

end Verif.NetSpec
