import Verif.QueueAct
import Verif.NetProj
import Verif.Props.NetAgain

/-!
# Where the agents from outside come from (C112)

`QueueServer._add_arrival`, queue_servers.py lines 346-378: an active queue schedules one agent from outside at a time. When
that agent arrives the next time is drawn, by `arrival_f` of the current time.
-/

set_option linter.unusedSectionVars false
set_option linter.unusedVariables false

namespace Verif.NetSpec

variable {T R : Type*} [LinearOrder T] [OrderTop T] [Zero T] [LinearOrder R] [Add R]

/-- The times drawn from `f` one after another: the first is `x`, and each of the others is what `f` returns for the one
before; `i` calls have been made so far. -/
def drawn (f : Nat → T → T) (i : Nat) (x : T) : Nat → T
  | 0 => x
  | j + 1 => f (i + j) (drawn f i x j)

/-- Between `s0` and `s`, `j` agents have been created; the last of them is scheduled if the queue is still active. -/
structure Stream (c : QCfg T) (s0 s : QS T) (j : Nat) : Prop where
  num : s.oArrivals = s0.oArrivals + j
  made : s.created = s0.created ++
    (List.range j).map fun i => ((c.edge.idx, s0.oArrivals + i), drawn c.arrivalF s0.arrCalls s0.nextCt (i + 1))
  calls : s.active = true → s.arrCalls = s0.arrCalls + j
  next : s.active = true → s.nextCt = drawn c.arrivalF s0.arrCalls s0.nextCt j
  sched : s.active = true → ∃ a ∈ agents s.arrivals, a.id = (c.edge.idx, s.oArrivals - 1) ∧ a.time = s.nextCt
  off : s0.active = false → s.active = false ∧ j = 0
  ct : ∃ i, s.nextCt = drawn c.arrivalF s0.arrCalls s0.nextCt i

theorem Stream.arrived {c : QCfg T} {s0 s s' : QS T} {j : Nat} {a : Agent T} {rest : List (Slot T)}
    (h : Stream c s0 s j) (hok : HeapOK s.arrivals) (hp : (agents s.arrivals).Perm (a :: agents rest))
    (ht : a.time = headTime s.arrivals) (hext : ExtSpec c s s' a.time rest) : ∃ j', Stream c s0 s' j' := by
  obtain ⟨ext, e1, e2, e3, e4⟩ := hext
  generalize hν : s'.nextCt = ν at e1
  generalize hα : s'.active = α at e1
  generalize hn : s'.arrCalls = n at e1
  cases e1 with
  | inactive h1 =>
    exact ⟨j, by simpa [h.num] using e3, by simpa [h.made] using e4, by simp [hα], by simp [hα], by simp [hα],
      fun h0 => ⟨hα, (h.off h0).2⟩, by rw [hν]; exact h.ct⟩
  | early h1 h2 =>
    refine ⟨j, by simpa [h.num] using e3, by simpa [h.made] using e4, fun _ => by rw [hn, h.calls h1],
      fun _ => by rw [hν, h.next h1], fun _ => ?_, fun h0 => absurd h1 (by simp [(h.off h0).1]),
      by rw [hν]; exact h.ct⟩
    obtain ⟨b, g1, g0, g2⟩ := h.sched h1
    refine ⟨b, e2.mem_iff.mpr ?_, by rw [e3]; exact g0, by rw [hν]; exact g2⟩
    rcases List.mem_cons.mp (hp.mem_iff.mp g1) with rfl | h5
    · exact absurd g2 h2.ne
    · simpa using h5
  | off h1 h2 h3 =>
    obtain ⟨b, g1, -, g2⟩ := h.sched h1
    have heq : a.time = s.nextCt := le_antisymm (by rw [ht, ← g2]; exact hok.le b g1) h2
    have hx : c.arrivalF s.arrCalls a.time = drawn c.arrivalF s0.arrCalls s0.nextCt (j + 1) := by
      rw [h.calls h1, heq, h.next h1]; rfl
    exact ⟨j, by simpa [h.num] using e3, by simpa [h.made] using e4, by simp [hα], by simp [hα], by simp [hα],
      fun h0 => ⟨hα, (h.off h0).2⟩, _, by rw [hν, hx]⟩
  | new h1 h2 h3 =>
    obtain ⟨b, g1, -, g2⟩ := h.sched h1
    have heq : a.time = s.nextCt := le_antisymm (by rw [ht, ← g2]; exact hok.le b g1) h2
    have hx : c.arrivalF s.arrCalls a.time = drawn c.arrivalF s0.arrCalls s0.nextCt (j + 1) := by
      rw [h.calls h1, heq, h.next h1]; rfl
    refine ⟨j + 1, by rw [e3, h.num]; simp [Nat.add_assoc], ?_, fun _ => ?_, fun _ => by rw [hν, hx], fun _ => ?_,
      fun h0 => absurd h1 (by simp [(h.off h0).1]), _, by rw [hν, hx]⟩
    · rw [e4, h.made, List.range_succ, List.map_append, ← List.append_assoc]
      simp [hx, h.num]
    · rw [hn, h.calls h1, Nat.add_assoc]
    · exact ⟨_, e2.mem_iff.mpr (List.mem_append_left _ (List.mem_singleton.mpr rfl)), by rw [e3]; rfl, hν.symm⟩

theorem Stream.step {c : QCfg T} {s0 s s' : QS T} {j : Nat} {op : QOp T} (hb : QBase s) (h : Stream c s0 s j)
    (h1 : op ≠ .clear) (h2 : op ≠ .setActive) (ho : OpOut c s op s') : ∃ j', Stream c s0 s' j' := by
  have same : ∀ s' : QS T, s'.arrivals = s.arrivals → s'.nextCt = s.nextCt → s'.arrCalls = s.arrCalls →
      s'.oArrivals = s.oArrivals → s'.created = s.created → (s'.active = true → s.active = true) →
      ∃ j', Stream c s0 s' j' := by
    intro s' e1 e2 e3 e4 e5 e6
    exact ⟨j, by rw [e4, h.num], by rw [e5, h.made], fun hx => by rw [e3, h.calls (e6 hx)],
      fun hx => by rw [e2, h.next (e6 hx)], fun hx => by rw [e1, e2, e4]; exact h.sched (e6 hx),
      fun h0 => ⟨by by_contra hx; simp [(h.off h0).1] at e6; simp [e6] at hx, (h.off h0).2⟩,
      by rw [e2]; exact h.ct⟩
  cases ho with
  | ev s' r _ h1 =>
    cases h1 with
    | idle _ _ h2 => exact ⟨j, h2 ▸ h⟩
    | dep a hlt h2 _ =>
      exact same s' h2.arrivals h2.nextCt h2.arrCalls h2.oArrivals h2.created (by rw [h2.active]; exact id)
    | arr a rest hle hfin _ h2 _ => exact h.arrived hb.okA h2.perm h2.time_eq h2.ext
    | block a rest hle hfin _ _ h2 _ => exact h.arrived hb.okA h2.perm h2.time_eq h2.ext
  | already => exact absurd rfl h2
  | act => exact absurd rfl h2
  | inact => exact same _ rfl rfl rfl rfl rfl (by simp)
  | srv n s' r h1 =>
    cases h1 with
    | typ => exact ⟨j, h⟩
    | val => exact ⟨j, h⟩
    | ok new k deps hnew hag hkl h2 h3 => exact same _ rfl rfl rfl rfl rfl id
  | delay t kb s' h1 =>
    cases h1 with
    | none => exact ⟨j, h⟩
    | some a rest deps _ _ _ h4 h2 h3 => exact same _ rfl rfl rfl rfl rfl id
  | collect => exact same _ rfl rfl rfl rfl rfl id
  | noteFull => exact same _ rfl rfl rfl rfl rfl id
  | noteOpen => exact ⟨j, h⟩
  | clearData => exact same _ rfl rfl rfl rfl rfl id
  | clear => exact absurd rfl h1
  | handover a arr g1 g2 g3 =>
    refine ⟨j, h.num, h.made, h.calls, h.next, fun hx => ?_, h.off, h.ct⟩
    obtain ⟨b, g4, g5⟩ := h.sched hx
    exact ⟨b, g2.mem_iff.mpr (List.mem_cons_of_mem _ g4), g5⟩

/-- `n` is reached from `n0` without `initialize` and without `clear`. -/
inductive Later (N : NetCfg T R) (n0 : Net T R) : Net T R → Prop
  | refl : Later N n0 n0
  | step {n n' : Net T R} (op : NetOp R) : Later N n0 n → op.Allowed N n → op ≠ .clear →
      (∀ pick a, op ≠ .initialise pick a) → op.run N n = .ok n' → Later N n0 n'

theorem Later.reach {N : NetCfg T R} {b : Nat → Bool} {n0 n : Net T R} (h0 : NetReach N b n0) (h : Later N n0 n) :
    NetReach N b n := by
  induction h with
  | refl => exact h0
  | step op _ ha _ _ hr ih => exact ih.step op ha hr

theorem Later.stream {N : NetCfg T R} (hN : N.OkA) {b : Nat → Bool} {n0 n : Net T R} (h0 : NetReach N b n0)
    (h : Later N n0 n) {k : Nat} (hk : k < N.nE) (hs : Simple (N.qc k))
    (hd : (n0.qs k).active = true → (n0.qs k).nextCt < (N.qc k).deactiveT) :
    ∃ j, Stream (N.qc k) (n0.qs k) (n.qs k) j := by
  induction h with
  | refl =>
    refine ⟨0, rfl, by simp, fun _ => rfl, fun _ => rfl, fun ha => ?_, fun ha => ⟨ha, rfl⟩, 0, rfl⟩
    have hr := h0.hist.queue hN hk hs.ne_null
    rcases ((hr.aliveInv hs (hN.fwd k hk) fun _ _ h => h.clock).1).act ha with h1 | ⟨a, h1, h3, h2, -⟩
    · exact absurd (hd ha) (not_lt.mpr h1)
    · exact ⟨a, h1, h3, h2⟩
  | @step n n' op h1 ha hc hi hr ih =>
    have hh := h1.reach h0
    have hops := op.ops (ok := fun _ op => op ≠ .clear ∧ ∀ pick a, op ≠ .initialise pick a) hN (hh.invA hN) ⟨hc, hi⟩ hr hk hs.ne_null
    have hq := hh.hist.queue hN hk hs.ne_null
    clear hr
    generalize n'.qs k = s' at hops ⊢
    suffices (∃ j, Stream (N.qc k) (n0.qs k) s' j) ∧ Reach (N.qc k) (b k) QueueSpec.anyOp s' from this.1
    induction hops with
    | refl => exact ⟨ih, reach_mono hq fun _ _ _ => trivial⟩
    | step q _ hp hq ihq =>
      obtain ⟨⟨j, hj⟩, hreach⟩ := ihq
      refine ⟨hj.step (hreach.base hs) ?_ ?_ (opOut _ _ _ q hs (hreach.base hs) hq), hreach.step q trivial hq⟩
      · rintro rfl; obtain ⟨n, -, h, -⟩ := hp; exact h rfl
      · rintro rfl; obtain ⟨n, pick, a, -, h⟩ := hp; exact h _ _ rfl

/-- C112: in the life of a network after `initialize`, the agents that come from outside to a queue are numbered
in turn and their times are the times drawn from the queue's `arrival_f` one after another, each at the time of the agent
before; whoever else arrives there, and whatever is done to the network short of `initialize` and `clear`. While the
queue is active the last agent created is scheduled to arrive, no earlier than the clock; a queue that is not active
stays so and gets nobody from outside. -/
theorem C112_stream {N : NetCfg T R} (hN : N.OkA) {b : Nat → Bool} {n0 n : Net T R} (h0 : NetReach N b n0)
    (h : Later N n0 n) {k : Nat} (hk : k < N.nE) (hs : Simple (N.qc k))
    (hd : (n0.qs k).active = true → (n0.qs k).nextCt < (N.qc k).deactiveT) :
    ∃ j, (n.qs k).oArrivals = (n0.qs k).oArrivals + j ∧
      (n.qs k).created = (n0.qs k).created ++ (List.range j).map (fun i =>
        ((k, (n0.qs k).oArrivals + i), drawn (N.qc k).arrivalF (n0.qs k).arrCalls (n0.qs k).nextCt (i + 1))) ∧
      ((n.qs k).active = true →
        n.t ≤ drawn (N.qc k).arrivalF (n0.qs k).arrCalls (n0.qs k).nextCt j ∧
        ∃ a ∈ agents (n.qs k).arrivals, a.id = (k, (n.qs k).oArrivals - 1) ∧
          a.time = drawn (N.qc k).arrivalF (n0.qs k).arrCalls (n0.qs k).nextCt j) ∧
      ((n0.qs k).active = false → (n.qs k).active = false ∧ j = 0) := by
  obtain ⟨j, hj⟩ := h.stream hN h0 hk hs hd
  have hi := (h.reach h0).invA hN
  have hidx := hN.idx k hk
  refine ⟨j, hj.num, by rw [hj.made, hidx], fun ha => ?_, hj.off⟩
  obtain ⟨a, g1, g2, g3⟩ := hj.sched ha
  rw [hj.next ha] at g3
  refine ⟨?_, a, g1, by rw [g2, hidx], g3⟩
  have hb := (hi.good k hk).base
  rw [← g3]
  refine (hi.tau k hk).trans ?_
  rw [hb.time]
  exact (min_le_left _ _).trans (hb.okA.le a g1)

theorem drawn_succ (f : Nat → T → T) (i : Nat) (x : T) (j : Nat) : drawn f i x (j + 1) = drawn f (i + 1) (f i x) j := by
  induction j with
  | zero => rfl
  | succ j ih => rw [drawn, ih, drawn]; congr 1; omega

theorem drawn_mono {f : Nat → T → T} (hf : ∀ i t, t ≤ f i t) (i : Nat) (x : T) : Monotone (drawn f i x) :=
  monotone_nat_of_le_succ fun j => hf _ _

/-- `initialize` on a new network calls `set_active` on the queues chosen. -/
theorem started_active {N : NetCfg T R} (hN : N.OkA) {b : Nat → Bool} {bas : Bool} {probs : Nat → List R}
    (hp : ∀ v, (probs v).length = (N.outEdges v).length) {pick : List Nat → Nat → List Nat} {l : List Nat} (hl : l.Nodup)
    (hm : ∀ m, N.maxAgents = .fin m → (l.length : Int) ≤ m) {n0 : Net T R}
    (h0 : (Net.init N b bas probs).initialise N pick (.queues l) = .ok n0) {k : Nat} (hk : k ∈ l)
    (ht : (N.qc k).edge.etype ≠ 0) : k < N.nE ∧ NetReach N b n0 ∧
    setActive (N.qc k) (QS.init (N.qc k) (b k)) = .ok (n0.qs k) := by
  have hnew : NetReach N b (Net.init N b bas probs) := .new bas probs hp
  have hr : NetReach N b n0 := hnew.step (.initialise pick (.queues l)) (.inl rfl) h0
  obtain ⟨n1, h1, hlt, ha, he⟩ := initialise_parts h0
  set l0 := l.filter fun e => decide ((N.qc e).edge.etype ≠ 0) with hl0
  have htr : Net.truncate N l0 = l0 := by
    unfold Net.truncate
    split
    · rfl
    · rename_i m hmm
      rw [if_neg]
      have h1 := hm m hmm
      have h2 : l0.length ≤ l.length := List.length_filter_le _ _
      omega
  rw [htr] at ha
  have hk0 : k ∈ l0 := by rw [hl0, List.mem_filter]; exact ⟨hk, by simpa using ht⟩
  obtain ⟨n2, b1, b2, b3, b4, b5⟩ := activate_leA hN l0 (Net.init N b bas probs) (hnew.invA hN).good
    (fun e he => hlt e (List.mem_of_mem_filter he))
  obtain rfl : n2 = n1 := Except.ok.inj (b1.symm.trans ha)
  have hact := b5 k hk0 (hl.filter _)
  have hq : n0.qs k = n2.qs k := by rw [he]
  exact ⟨hlt k hk, hr, by rw [hq]; exact hact⟩

/-- The state of a queue that `initialize` has made active on a new network. -/
theorem started {N : NetCfg T R} (hN : N.OkA) {b : Nat → Bool} {bas : Bool} {probs : Nat → List R}
    (hp : ∀ v, (probs v).length = (N.outEdges v).length) {pick : List Nat → Nat → List Nat} {l : List Nat} (hl : l.Nodup)
    (hm : ∀ m, N.maxAgents = .fin m → (l.length : Int) ≤ m) {n0 : Net T R}
    (h0 : (Net.init N b bas probs).initialise N pick (.queues l) = .ok n0) {k : Nat} (hk : k ∈ l)
    (ht : (N.qc k).edge.etype ≠ 0) (hs : Simple (N.qc k)) : k < N.nE ∧ NetReach N b n0 ∧
    ((N.qc k).deactiveT ≤ (N.qc k).arrivalF 0 0 ∧ (n0.qs k).active = false ∧ (n0.qs k).oArrivals = 0 ∧
        (n0.qs k).created = [] ∨
      (N.qc k).arrivalF 0 0 < (N.qc k).deactiveT ∧ (n0.qs k).active = (N.qc k).activeCap.lt 1 ∧
        (n0.qs k).oArrivals = 1 ∧ (n0.qs k).arrCalls = 1 ∧ (n0.qs k).nextCt = (N.qc k).arrivalF 0 0 ∧
        (n0.qs k).created = [((k, 0), (N.qc k).arrivalF 0 0)]) := by
  obtain ⟨hkE, hr, hact⟩ := started_active hN hp hl hm h0 hk ht
  refine ⟨hkE, hr, ?_⟩
  have hbase : QBase (QS.init (N.qc k) (b k)) := by
    simpa using (Reach.init (c := N.qc k) (b := b k) (ok := QueueSpec.anyOp)).base hs
  have ho := opOut (N.qc k) (QS.init (N.qc k) (b k)) (n0.qs k) .setActive hs hbase hact
  generalize n0.qs k = s at ho ⊢
  cases ho with
  | already h => simp [QS.init] at h
  | act arr ext ν act calls g0 g1 g2 g3 =>
    cases g1 with
    | early g => simp [QS.init] at g
    | off g4 g5 => left; exact ⟨g5, rfl, rfl, rfl⟩
    | new g4 g5 =>
      right
      refine ⟨g5, ?_, rfl, rfl, rfl, ?_⟩
      · simp
        rfl
      · have hid := hN.idx k hkE
        generalize N.qc k = c at hid ⊢
        subst hid; rfl

/-- C112: on a new network, `initialize(queues=l)` makes each of the different queues in `l` active whose edge type is not
0, if there are not more of them than `max_agents`. The agents that come to it from outside are numbered 0, 1, ... The
first comes at the time `arrival_f` returns for time 0, the second at the time it returns for the time of the first, and
so on. While the queue is active the last of them comes no earlier than the clock; all those have come whose time is
before the clock. -/
theorem C112_from_start {N : NetCfg T R} (hN : N.OkA) {b : Nat → Bool} {bas : Bool} {probs : Nat → List R}
    (hp : ∀ v, (probs v).length = (N.outEdges v).length) {pick : List Nat → Nat → List Nat} {l : List Nat} (hl : l.Nodup)
    (hm : ∀ m, N.maxAgents = .fin m → (l.length : Int) ≤ m) {n0 n : Net T R}
    (h0 : (Net.init N b bas probs).initialise N pick (.queues l) = .ok n0) (h : Later N n0 n) {k : Nat} (hk : k ∈ l)
    (ht : (N.qc k).edge.etype ≠ 0) (hs : Simple (N.qc k)) :
    (n.qs k).created = (List.range (n.qs k).oArrivals).map (fun i => ((k, i), drawn (N.qc k).arrivalF 0 0 (i + 1))) ∧
    ((n.qs k).active = true → 0 < (n.qs k).oArrivals ∧
      n.t ≤ drawn (N.qc k).arrivalF 0 0 (n.qs k).oArrivals ∧
      ∀ i, drawn (N.qc k).arrivalF 0 0 (i + 1) < n.t → i < (n.qs k).oArrivals) := by
  obtain ⟨hkE, hr, hst⟩ := started hN hp hl hm h0 hk ht hs
  rcases hst with ⟨s1, s2, s3, s4⟩ | ⟨s1, s2, s3, s4, s5, s6⟩
  · obtain ⟨j, h1, h2, h3, h4⟩ := C112_stream hN hr h hkE hs (by simp [s2])
    obtain ⟨h5, rfl⟩ := h4 s2
    rw [s3] at h1
    simp [h1, h2, h5, s4]
  · obtain ⟨j, h1, h2, h3, h4⟩ := C112_stream hN hr h hkE hs (by rw [s5]; exact fun _ => s1)
    simp only [s3, s4, s5, s6, ← drawn_succ _ 0] at h1 h2 h3
    refine ⟨?_, fun ha => ⟨by omega, by rw [h1, Nat.add_comm]; exact (h3 ha).1, fun i hi => ?_⟩⟩
    · rw [h2, h1, Nat.add_comm 1 j, List.range_succ_eq_map, List.map_cons, List.map_map]
      simp only [List.cons_append, List.nil_append, List.cons.injEq, List.map_inj_left]
      refine ⟨rfl, fun i _ => ?_⟩
      simp [Nat.add_comm 1 i, Nat.succ_eq_add_one]
    · by_contra hlt
      have := drawn_mono (hN.fwd k hkE).1 0 0 (a := j + 1) (b := i + 1) (by omega)
      exact absurd ((h3 ha).1.trans this) (not_le.mpr hi)

theorem Later.simulate {N : NetCfg T R} (hN : N.OkA) {b : Nat → Bool} {n0 n n' : Net T R} (h0 : NetReach N b n0)
    (h : Later N n0 n) (m : Nat) (hr : n.simulate N m = .ok n') : Later N n0 n' :=
  (simulate_induct hN (b := b) (fun x => Later N n0 x)
    (fun n1 n2 _ h2 h3 => h2.step .step trivial (by simp) (by simp) h3) m (h.reach h0) h hr).1

/-- C112: with `max_agents`, `active_cap` and `deactive_t` infinite, `simulate` keeps an active queue active as long as
`arrival_f` returns finite times. -/
theorem C112_stays_active {N : NetCfg T R} (hN : N.OkA) (hm : N.maxAgents = .inf) {b : Nat → Bool} {n0 n n' : Net T R}
    (h0 : NetReach N b n0) (h : Later N n0 n) {k : Nat} (hk : k < N.nE) (hs : Simple (N.qc k))
    (hc : (N.qc k).activeCap = .inf) (hd : (N.qc k).deactiveT = ⊤)
    (hfin : ∀ i, drawn (N.qc k).arrivalF (n0.qs k).arrCalls (n0.qs k).nextCt i < ⊤) (ha : (n.qs k).active = true)
    (m : Nat) (hr : n.simulate N m = .ok n') : (n'.qs k).active = true := by
  refine ((simulate_induct hN (b := b) (fun x => Later N n0 x ∧ (x.qs k).active = true) ?_ m (h.reach h0)
    ⟨h, ha⟩ hr).1).2
  rintro n1 n2 h1 ⟨h2, h3⟩ h4
  have hl := h2.step .step trivial (by simp) (by simp) h4
  refine ⟨hl, ?_⟩
  by_contra hx
  rcases (C110_one_event hN h1 h4 k hk).2.1 h3 (by simpa using hx) with ⟨m, h5, -⟩ | h5 | h5
  · simp [hm] at h5
  · obtain ⟨j, hj⟩ := hl.stream hN h0 hk hs (fun _ => by rw [hd]; exact hfin 0)
    obtain ⟨i, hi⟩ := hj.ct
    rw [hd, hi] at h5
    exact absurd (hfin i) (not_lt.mpr h5)
  · rw [hc] at h5; simp [Cap.lt] at h5

/-! ## Example -/

theorem demoAt_later (m : Nat)
    (h : ∀ i < m, (runNet demoNet (Net.init demoNet (fun _ => true) true demoProbs) (demoRun (i + 1))).isSome = true) :
    Later demoNet (demoAt 0) (demoAt m) := by
  induction m with
  | zero => exact .refl
  | succ m ih =>
    exact (ih fun i hi => h i (by omega)).step .step trivial (by simp) (by simp) (demoAt_step m (h m (by omega)))

/-- Queue 2 of the demonstration network: agents are handed over to it by queue 0 and come from outside; the times from
outside are the multiples of 5. -/
example : Later demoNet (demoAt 0) (demoAt 12) ∧ Simple (demoNet.qc 2) ∧ ((demoAt 0).qs 2).active = true ∧
    ((demoAt 0).qs 2).nextCt < (demoNet.qc 2).deactiveT ∧
    ((demoAt 0).qs 2).created = [((2, 0), 5)] ∧ ((demoAt 11).qs 2).active = true ∧ (demoAt 11).t = 10 ∧
    ((demoAt 11).qs 2).created = [((2, 0), 5), ((2, 1), 10), ((2, 2), 15)] ∧
    ((demoAt 12).qs 2).numArrivals = 3 ∧ (demoAt 12).t = 11 ∧ ((demoAt 12).qs 2).active = false :=
  ⟨demoAt_later 12 (by decide +kernel), .inl rfl, by decide +kernel⟩

end Verif.NetSpec
