import Verif.Props.NetPace

/-!
# Blocked agents whose delay is rounded away (C115)

With `blocking='BAS'` a blocked agent tries again `EPS * uniform(0.33, 0.66)` after the next departure from the queue it
waits for (`/repo/queueing_tool/network/queue_network.py` lines 1326-1329). From about t = 2**30 on this sum is rounded to
the time of the departure itself. Then the scheduler decides which of the two comes first, and four entries with the same
time are enough for it to pass over one of them for ever (`/repo/queueing_tool/network/priority_queue.pyx` lines 104-183).
-/

namespace Verif.NetSpec

section
variable {T R : Type*} [LinearOrder T] [OrderTop T] [Zero T] [LinearOrder R] [Add R]

/-- If the time at which a blocked agent tries again is the time at which it was blocked, the event changes nothing but
counters and the order of the scheduler. -/
theorem C115_retry {N : NetCfg T R} {n : Net T R} {k e2 d : Nat} {x : T} {a : Agent T} {h h' : PQ T}
    (hs : n.heap.size ≠ 0) (hp : n.heap.pop = some (h, some (x, k))) (hk : k < N.nE) (hkind : (N.qc k).kind ≠ .null)
    (hidx : (N.qc k).edge.idx = k) (hx : x < ⊤) (hax : a.time = x) (hdep : (n.qs k).departures = [.agent a, .infty])
    (harr : x < headTime (n.qs k).arrivals) (htime : (n.qs k).time = x)
    (hdest : n.destination N k a = .ok (e2, d)) (he : e2 < N.nE) (hek : e2 ≠ k)
    (hcap : atCapacity (N.qc e2) (n.qs e2) = true) (hbas : n.bas = true)
    (hjit : N.jit n.jitCalls (headTime (n.qs e2).departures) = x)
    (hpush : h.push (N.garbage (2 * (n.numEvents + 1))) x k = some h') :
    n.step N = .ok { n with
      heap := h', t := x, numEvents := n.numEvents + 1, unifCalls := n.unifCalls + d, jitCalls := n.jitCalls + 1
      qs := Function.update (Function.update n.qs e2 { n.qs e2 with numBlocked := (n.qs e2).numBlocked + 1 }) k
        { n.qs k with departures := [.agent { a with blocked := a.blocked + 1 }, .infty] } } := by
  have hdesc : nextEventDescription (N.qc k) (n.qs k) = 2 := by
    rw [nextEventDescription, if_neg hkind, if_pos]
    rw [hdep]
    show a.time < _
    rwa [hax]
  have hd' : Net.destination N { n with heap := h, t := x, numEvents := n.numEvents + 1 } k a = .ok (e2, d) := hdest
  subst hax
  rw [Net.step, if_neg hs, hp]
  simp only [not_le.mpr hk, if_false, hdesc, if_true]
  rw [Net.departure]
  simp only [hdep, List.head?_cons]
  simp only [hd']
  simp only [not_le.mpr he, if_false, hcap, hidx, hek, ne_eq, not_false_eq_true, and_self, if_true]
  simp only [Net.blocked, Net.setQ, Function.update_of_ne hek, Function.update_of_ne hek.symm,
    Function.update_self, hbas, hjit, bumpHead, hdep, delayService, hkind, if_false]
  have hpp : heappop Slot.time [Slot.agent { a with blocked := a.blocked + 1 }, (.infty : Slot T)] =
      some (Slot.agent { a with blocked := a.blocked + 1 }, [.infty]) := by
    simp [heappop, setChk, siftup, siftupLoop, siftdown, siftdownLoop]
  have hpq : heappush Slot.time [(.infty : Slot T)] (Slot.agent { a with blocked := a.blocked + 1 }) =
      some [Slot.agent { a with blocked := a.blocked + 1 }, .infty] := by
    simp [heappush, setChk, siftdown, siftdownLoop, Slot.time, hx]
  simp only [List.length_cons, List.length_nil, Nat.reduceLT, Nat.reduceAdd, if_true, hpp, hpq]
  rw [Function.update_idem]
  have hut : updateTime { n.qs k with
      departures := [Slot.agent { a with blocked := a.blocked + 1 }, .infty] } = { n.qs k with
      departures := [Slot.agent { a with blocked := a.blocked + 1 }, .infty] } := by
    have key : ∀ s : QS T, headTime s.departures = s.time → ¬ headTime s.arrivals < headTime s.departures →
        updateTime s = s := by
      intro s h1 h2
      rw [updateTime, if_neg h2, h1]
    exact key _ htime.symm (not_lt.mpr harr.le)
  rw [hut, Net.pushBoth]
  simp only [Function.update_of_ne hek, Function.update_self, not_true_eq_false, if_false, ne_eq, htime, hx, if_true,
    Net.pushKey, hidx, hpush]
end

/-! ## A network that starves -/

/-- Queues 0, 1 and 2 lead to a LossQueue 3 with services of length 8 and room for one; NullQueue 4. The delay is
rounded away. -/
def starveNet : NetCfg ℕ∞ Nat where
  nE := 5
  qc k := { (match k with
    | 0 => demoQ .server 0 1 0 1 6 1 .inf
    | 1 => demoQ .server 0 1 1 1 4 1 .inf
    | 2 => demoQ .server 0 1 2 1 2 1 .inf
    | 3 => demoQ .loss 1 2 3 2 5 8 (.fin 0)
    | _ => demoQ .null 2 2 k 0 1 1 .inf) with activeCap := .fin 2 }
  outEdges v := match v with
    | 0 => [0, 1, 2]
    | 1 => [3]
    | _ => [4]
  maxAgents := .inf
  unif i := i % 3
  jit _ t := t
  garbage _ _ := (0, 0)

def starveProbs (v : Nat) : List Nat := match v with
  | 0 => [1, 1, 1]
  | _ => [1]
def starveRun (m : Nat) : List (NetOp Nat) :=
  .initialise (fun l _ => l) (.queues [0, 1, 2]) :: List.replicate m .step
abbrev starveAt (m : Nat) : Net ℕ∞ Nat := resNet starveNet (fun _ => true) true starveProbs (starveRun m)

theorem starveNet_cases {k : Nat} (hk : k < starveNet.nE) : k = 0 ∨ k = 1 ∨ k = 2 ∨ k = 3 ∨ k = 4 := by
  have : k < 5 := hk
  omega

theorem starveNet_ok : starveNet.Ok where
  idx := by decide
  kinds := by unfold Simple; decide
  fwd := by
    intro k hk
    refine ⟨fun n t => ?_, fun n t => ?_⟩ <;> rcases starveNet_cases hk with rfl | rfl | rfl | rfl | rfl <;>
      exact le_self_add
  out := by unfold Simple; decide
  outLt := by unfold Simple; decide
  jit := fun _ _ => le_rfl

theorem starveNet_fin : starveNet.FinSvc where
  svc := by
    intro k hk _ i t ht
    rcases starveNet_cases hk with rfl | rfl | rfl | rfl | rfl
    · exact WithTop.add_lt_top.mpr ⟨ht, ENat.natCast_lt_top 1⟩
    · exact WithTop.add_lt_top.mpr ⟨ht, ENat.natCast_lt_top 1⟩
    · exact WithTop.add_lt_top.mpr ⟨ht, ENat.natCast_lt_top 1⟩
    · exact WithTop.add_lt_top.mpr ⟨ht, ENat.natCast_lt_top 8⟩
    · exact WithTop.add_lt_top.mpr ⟨ht, ENat.natCast_lt_top 1⟩
  jit := fun _ t ht => ht
  servers := by
    intro k hk _ m hm
    have : (starveNet.qc k).servers = .fin 1 := by rcases starveNet_cases hk with rfl | rfl | rfl | rfl | rfl <;> rfl
    rw [this] at hm
    cases hm
    decide
  buffer := by
    intro k hk _ m hm
    have : (starveNet.qc k).buffer = .inf ∨ (starveNet.qc k).buffer = .fin 0 := by
      rcases starveNet_cases hk with rfl | rfl | rfl | rfl | rfl
      · exact .inl rfl
      · exact .inl rfl
      · exact .inl rfl
      · exact .inr rfl
      · exact .inl rfl
    rcases this with h | h <;> rw [h] at hm <;> cases hm
    decide

/-- The scheduler in the three states it goes through. -/
def starveHeap (i : Nat) : PQ ℕ∞ := (starveAt (15 + i)).heap

/-- The first of the four entries goes to the end, the last two move up; the entry of queue 3 stays second. -/
theorem starveHeap_cycle (i : Nat) (hi : i < 3) :
    (starveHeap i).size ≠ 0 ∧ ∃ h, (starveHeap i).pop = some (h, some (19, (i + 1) % 3)) ∧
    h.push (fun _ => (0, 0)) 19 ((i + 1) % 3) = some (starveHeap ((i + 1) % 3)) := by
  have : i = 0 ∨ i = 1 ∨ i = 2 := by omega
  rcases this with rfl | rfl | rfl
  · refine ⟨by decide +kernel, (((starveHeap 0).pop).getD (PQ.empty, none)).1, ?_, ?_⟩ <;> decide +kernel
  · refine ⟨by decide +kernel, (((starveHeap 1).pop).getD (PQ.empty, none)).1, ?_, ?_⟩ <;> decide +kernel
  · refine ⟨by decide +kernel, (((starveHeap 2).pop).getD (PQ.empty, none)).1, ?_, ?_⟩ <;> decide +kernel

structure Starve (i : Nat) (n : Net ℕ∞ Nat) : Prop where
  heap : n.heap = starveHeap i
  bas : n.bas = true
  init : n.initialized = true
  queues : ∀ k < 3, (n.qs k).time = 19 ∧ 19 < headTime (n.qs k).arrivals ∧
    ∃ a, a.time = 19 ∧ a.kind = .plain ∧ (n.qs k).departures = [.agent a, .infty]
  full : atCapacity (starveNet.qc 3) (n.qs 3) = true
  due : (n.qs 3).time = 19 ∧ headTime (n.qs 3).departures = 19
  left : (n.qs 3).numDepartures = 1

theorem Starve.step {i : Nat} (hi : i < 3) {n : Net ℕ∞ Nat} (h : Starve i n) :
    ∃ n', n.step starveNet = .ok n' ∧ Starve ((i + 1) % 3) n' ∧ n'.t = 19 := by
  obtain ⟨hs, h', hp, hq⟩ := starveHeap_cycle i hi
  obtain ⟨k, hk⟩ : ∃ k, k = (i + 1) % 3 := ⟨_, rfl⟩
  rw [← hk] at hp hq ⊢
  have hk3 : k < 3 := hk ▸ Nat.mod_lt _ (by decide)
  obtain ⟨h1, h2, a, h3, h4, h5⟩ := h.queues k hk3
  have hkc : k = 0 ∨ k = 1 ∨ k = 2 := by omega
  have htgt : (starveNet.qc k).edge.tgt = 1 ∧ (starveNet.qc k).kind = .server ∧ (starveNet.qc k).edge.idx = k := by
    rcases hkc with rfl | rfl | rfl <;> exact ⟨rfl, rfl, rfl⟩
  have hd : n.destination starveNet k a = .ok (3, 0) := by
    simp only [Net.destination, h4, htgt.1]
    rfl
  have hne : (3 : Nat) ≠ k := by omega
  refine ⟨_, C115_retry (by rw [h.heap]; exact hs) (by rw [h.heap]; exact hp) (show k < 5 by omega)
    (by rw [htgt.2.1]; decide) htgt.2.2 (ENat.natCast_lt_top 19) h3 h5 h2 h1 hd (show 3 < 5 by decide) hne h.full h.bas
    h.due.2 hq, ⟨rfl, h.bas, h.init, ?_, ?_, ?_, ?_⟩, rfl⟩
  · intro j hj
    by_cases hjk : j = k
    · subst hjk
      simp only [Function.update_self]
      exact ⟨h1, h2, { a with blocked := a.blocked + 1 }, h3, h4, rfl⟩
    · have : j ≠ 3 := by omega
      simp only [Function.update_of_ne hjk, Function.update_of_ne this]
      exact h.queues j hj
  · simp only [Function.update_of_ne hne, Function.update_self]
    exact h.full
  · simp only [Function.update_of_ne hne, Function.update_self]
    exact h.due
  · simp only [Function.update_of_ne hne, Function.update_self]
    exact h.left

theorem starve_start : Starve 0 (starveAt 15) where
  heap := rfl
  bas := by decide +kernel
  init := by decide +kernel
  queues := by
    intro k hk
    have : k = 0 ∨ k = 1 ∨ k = 2 := by omega
    rcases this with rfl | rfl | rfl
    · exact ⟨by decide +kernel, by decide +kernel, ⟨(0, 1), 19, 1, .plain⟩, by decide +kernel⟩
    · exact ⟨by decide +kernel, by decide +kernel, ⟨(1, 0), 19, 2, .plain⟩, by decide +kernel⟩
    · exact ⟨by decide +kernel, by decide +kernel, ⟨(2, 1), 19, 2, .plain⟩, by decide +kernel⟩
  full := by decide +kernel
  due := by decide +kernel
  left := by decide +kernel

theorem starveAt_reach (m : Nat) : NetReach starveNet (fun _ => true) (starveAt m) :=
  reachNet _ _ _ _ _ (by
    intro v
    match v with
    | 0 | 1 => rfl
    | _ + 2 => rfl)

/-- C87 needs that blocked agents try again strictly later than the departure they wait for: if the delay is rounded
away, the scheduler can pass over that departure for ever. -/
theorem C115_starves : starveNet.Ok ∧ starveNet.FinSvc ∧ (∀ i (t : ℕ∞), starveNet.jit i t = t) ∧
    (∀ k < starveNet.nE, ∀ i (t : ℕ∞), t < ⊤ → t < (starveNet.qc k).serviceF i t) ∧
    Acyclic starveNet (fun k => if k < 3 then 1 else 0) ∧ NetReach starveNet (fun _ => true) (starveAt 15) ∧
    (∀ k < starveNet.nE, ∃ m, (starveNet.qc k).activeCap = .fin m) ∧
    ∀ m, ∃ n', (starveAt 15).simulate starveNet m = .ok n' ∧ (n'.qs 3).time = 19 ∧ (n'.qs 3).numDepartures = 1 ∧
      (m ≠ 0 → n'.t = 19) := by
  refine ⟨starveNet_ok, starveNet_fin, fun _ _ => rfl, ?_, by unfold Acyclic Simple; decide, starveAt_reach 15,
    fun k _ => ⟨2, rfl⟩, fun m => ?_⟩
  · intro k hk i t ht
    have hlt : ∀ m : ℕ, 0 < m → t < t + (m : ℕ∞) := by
      intro m hm
      lift t to ℕ using ht.ne
      exact_mod_cast Nat.lt_add_of_pos_right hm
    rcases starveNet_cases hk with rfl | rfl | rfl | rfl | rfl
    · exact hlt 1 (by decide)
    · exact hlt 1 (by decide)
    · exact hlt 1 (by decide)
    · exact hlt 8 (by decide)
    · exact hlt 1 (by decide)
  have hmain : ∀ m i n, i < 3 → Starve i n → ∃ i' n', n.steps starveNet m = .ok n' ∧ Starve i' n' ∧ (m ≠ 0 → n'.t = 19) := by
    intro m
    induction m with
    | zero => intro i n _ h; exact ⟨i, n, rfl, h, fun h => absurd rfl h⟩
    | succ m ih =>
      intro i n hi h
      obtain ⟨n1, g1, g2, g3⟩ := h.step hi
      obtain ⟨i', n', q1, q2, q3⟩ := ih _ n1 (Nat.mod_lt _ (by decide)) g2
      refine ⟨i', n', by simp only [Net.steps, g1, q1], q2, fun _ => ?_⟩
      cases m with
      | zero =>
        simp only [Net.steps, Except.ok.injEq] at q1
        rw [← q1]; exact g3
      | succ m => exact q3 (by omega)
  obtain ⟨i', n', q1, q2, q3⟩ := hmain m 0 _ (by decide) starve_start
  exact ⟨n', by rw [Net.simulate, if_pos starve_start.init]; exact q1, q2.due.1, q2.left, q3⟩

/-- `simulate(t=10)` never ends there: C88 needs a pace. -/
theorem C115_endless : (starveAt 16).t = 19 ∧ ∀ fuel, (starveAt 16).simulateT starveNet 10 fuel = none := by
  have h16 : Starve 1 (starveAt 16) := by
    obtain ⟨n', g1, g2, -⟩ := starve_start.step (by decide)
    have := resNet_step (N := starveNet) (b := fun _ => true) (bas := true) (probs := starveProbs) (ops := starveRun 15)
      (by decide +kernel)
    rw [Net.simulate, if_pos starve_start.init, Net.steps, g1] at this
    simp only [Net.steps, Except.ok.injEq] at this
    subst this
    exact g2
  have ht : (starveAt 16).t = 19 := by decide +kernel
  refine ⟨ht, fun fuel => ?_⟩
  rw [Net.simulateT, if_pos h16.init, ht]
  have hmain : ∀ fuel i n, i < 3 → n.t = 19 → Starve i n → n.stepsUntil starveNet (19 + 10) fuel = none := by
    intro fuel
    induction fuel with
    | zero =>
      intro i n _ ht _
      rw [Net.stepsUntil, if_pos (by rw [ht]; decide)]
    | succ fuel ih =>
      intro i n hi ht h
      obtain ⟨n1, g1, g2, g3⟩ := h.step hi
      rw [Net.stepsUntil, if_pos (by rw [ht]; decide), g1]
      exact ih _ n1 (Nat.mod_lt _ (by decide)) g3 g2
  exact hmain fuel 1 _ (by decide) ht h16

end Verif.NetSpec
