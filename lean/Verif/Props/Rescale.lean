import Verif.Rescale
import Verif.Props.QueueWit
import Verif.Props.Forget
import Mathlib.Data.ENNReal.Operations

/-!
# C125: only the order of the times matters; C126: uninitialised memory does not matter

C125: change the unit of time (or distort time in any increasing way that keeps 0 and infinity): every queue and every
network does the same things at the changed times.  With blocking after service the delay `EPS * uniform(0.33, 0.66)`
(queue_network.py line 1326) has to be changed too: the constant `EPS` is a time, so that a network of this kind does
depend on the unit.

C126: the scheduler doubles its arrays without clearing the new half (priority_queue.pyx lines 84-91).  What stands
there never has an effect.

All four queue classes, one queue and networks, any sequence of calls.
-/

set_option linter.unusedSectionVars false

namespace Verif

open scoped ENNReal

section

variable {T T' R : Type*} [LinearOrder T] [OrderTop T] [Zero T] [LinearOrder T'] [OrderTop T'] [Zero T']
  [LinearOrder R] [Add R]

/-- The same call at the mapped time. -/
def QOp.map (f : T → T') : QOp T → QOp T'
  | .next => .next
  | .setActive => .setActive
  | .setInactive => .setInactive
  | .setServers n => .setServers n
  | .delay t k => .delay (t.map f) k
  | .collect b => .collect b
  | .note => .note
  | .clearData => .clearData
  | .clear => .clear
  | .handover a => .handover ⟨a.id, f a.time, a.blocked, a.kind⟩

theorem QOp.run_map {f : T → T'} (hf : TimeMap f) {c : QCfg T} {c' : QCfg T'} (hc : c.Conj f c') (s : QS T) (op : QOp T) :
    (op.map f).run c' (s.map f) = mapE f (op.run c s) := by
  cases op with
  | next =>
    simp only [QOp.map, QOp.run, nextEvent_map hf hc]
    rcases nextEvent c s with e | ⟨s, r⟩ <;> rfl
  | setActive => exact setActive_map hf hc s
  | setInactive => rfl
  | setServers n => simp only [QOp.map, QOp.run, setNumServers_map hf hc]; rfl
  | delay t k => simp only [QOp.map, QOp.run, bumpHead_map, delayService_map hf hc]
  | collect b => rfl
  | note =>
    simp only [QOp.map, QOp.run, atCapacity_map hc]
    cases atCapacity c s <;> rfl
  | clearData => rfl
  | clear => simp only [QOp.map, QOp.run, clear_map hf hc]; rfl
  | handover a => exact addArrivalAgent_map hf hc s a

/-- C125 for one queue.  `f` keeps the order of times, zero and infinity; the functions of the second queue do at mapped
times what those of the first do at the times themselves.  Then any calls have the same effect: the same exception, or
the same state with all times mapped. -/
theorem C125_queue {f : T → T'} (hlt : ∀ a b, f a < f b ↔ a < b) (htop : f ⊤ = ⊤) (hzero : f 0 = 0) {c : QCfg T}
    {c' : QCfg T'} (hc : c.Conj f c') (b : Bool) (ops : List (QOp T)) :
    ERel (fun s s' => s' = s.map f) (runOps c (QS.init c b) ops) (runOps c' (QS.init c' b) (ops.map (QOp.map f))) := by
  have hf : TimeMap f := ⟨hlt, htop, hzero⟩
  have key : ∀ (ops : List (QOp T)) (s : QS T),
      ERel (fun s s' => s' = s.map f) (runOps c s ops) (runOps c' (s.map f) (ops.map (QOp.map f))) := by
    intro ops
    induction ops with
    | nil => intro s; exact .ok rfl
    | cons op ops ih =>
      intro s
      simp only [List.map_cons, runOps, QOp.run_map hf hc]
      cases op.run c s with
      | error e => exact .error _
      | ok s => exact ih s
  rw [QS.init_map hf hc]
  exact key ops _

/-- C125 for the agents handed out: `next_event` returns the same agent, at the mapped time. -/
theorem C125_next_event {f : T → T'} (hlt : ∀ a b, f a < f b ↔ a < b) (htop : f ⊤ = ⊤) (hzero : f 0 = 0) {c : QCfg T}
    {c' : QCfg T'} (hc : c.Conj f c') (s : QS T) :
    ERel (fun p p' => p'.1 = p.1.map f ∧ p'.2 = p.2.map fun a => ⟨a.id, f a.time, a.blocked, a.kind⟩)
      (nextEvent c s) (nextEvent c' (s.map f)) := by
  rw [nextEvent_map ⟨hlt, htop, hzero⟩ hc]
  rcases nextEvent c s with e | ⟨s, r⟩
  · exact .error _
  · exact .ok ⟨rfl, rfl⟩

theorem runCalls_same {f : T → T'} (hf : TimeMap f) {J : Prop} {N : NetCfg T R} {N' : NetCfg T' R} (hN : N.Conj f J N')
    (ops : List (NetOp R)) (hops : NetOp.setBlocking true ∈ ops → J) {n : Net T R} {n' : Net T' R} (h : n.Same f J n') :
    ERel (Net.Same f J) (runCalls N ops n) (runCalls N' ops n') := by
  induction ops generalizing n n' with
  | nil => exact .ok h
  | cons op ops ih =>
    simp only [runCalls]
    have hs := NetOp.run_same hf hN h op (by rintro b rfl rfl; exact hops (by simp))
    generalize op.run N n = x at hs ⊢
    generalize op.run N' n' = x' at hs ⊢
    cases hs with
    | error => exact .error _
    | ok hs => exact ih (fun hm => hops (by simp [hm])) hs

/-- C125 for networks.  The second network is built like the first, its functions do at mapped times what those of the
first do.  Any calls have the same effect: the same exception, or the same state with all times mapped.  (`J`, true:
the small delay of agents blocked after service is mapped too.) -/
theorem C125_network {f : T → T'} (hlt : ∀ a b, f a < f b ↔ a < b) (htop : f ⊤ = ⊤) (hzero : f 0 = 0) {N : NetCfg T R}
    {N' : NetCfg T' R} (hN : N.Conj f True N') (b : Nat → Bool) (bas : Bool) (probs : Nat → List R)
    (ops : List (NetOp R)) :
    ERel (Net.Same f True) (runCalls N ops (Net.init N b bas probs)) (runCalls N' ops (Net.init N' b bas probs)) :=
  runCalls_same ⟨hlt, htop, hzero⟩ hN ops (fun _ => trivial) (.init ⟨hlt, htop, hzero⟩ hN b bas probs fun _ => trivial)

/-- C125 with repetitive service blocking: nothing is assumed about the small delay. -/
theorem C125_network_rs {f : T → T'} (hlt : ∀ a b, f a < f b ↔ a < b) (htop : f ⊤ = ⊤) (hzero : f 0 = 0)
    {N : NetCfg T R} {N' : NetCfg T' R} (hN : N.Conj f False N') (b : Nat → Bool) (probs : Nat → List R)
    (ops : List (NetOp R)) (hops : NetOp.setBlocking true ∉ ops) :
    ERel (Net.Same f False) (runCalls N ops (Net.init N b false probs)) (runCalls N' ops (Net.init N' b false probs)) :=
  runCalls_same ⟨hlt, htop, hzero⟩ hN ops hops (.init ⟨hlt, htop, hzero⟩ hN b false probs fun h => by cases h)

theorem leastKey_same {f : T → T'} (hf : TimeMap f) {J : Prop} {N : NetCfg T R} {N' : NetCfg T' R} (hN : N.Conj f J N')
    {n : Net T R} {n' : Net T' R} (h : n.Same f J n') (m : Nat) :
    Net.leastKey N' n' m = (Net.leastKey N n m).map (entry f) := by
  induction m with
  | zero => rfl
  | succ m ih =>
    simp only [Net.leastKey, ih]
    cases Net.leastKey N n m with
    | none => simp only [Option.map_none, Option.map_some, entry, h.time, (hN.qc m).edge]
    | some p =>
      simp only [Option.map_some, entry, h.time, (hN.qc m).edge, hf.lt, hf.inj]
      split <;> rfl

/-- C125, what is read off: in corresponding states the two networks show the same clock, the same time of the next
event, the same description of the next event, the same counts; every row of data is the same at mapped times. -/
theorem C125_observed {f : T → T'} (hlt : ∀ a b, f a < f b ↔ a < b) (htop : f ⊤ = ⊤) (hzero : f 0 = 0) {J : Prop}
    {N : NetCfg T R} {N' : NetCfg T' R} (hN : N.Conj f J N') {n : Net T R} {n' : Net T' R} (h : n.Same f J n') :
    n'.t = f n.t ∧ n'.time = n.time.map f ∧ n'.description N' = n.description N ∧ n'.numEvents = n.numEvents ∧
      n'.numAgents = n.numAgents ∧ ∀ k, (n'.qs k).numSystem = (n.qs k).numSystem ∧
        (n'.qs k).numDepartures = (n.qs k).numDepartures ∧ (n'.qs k).numBlocked = (n.qs k).numBlocked ∧
        (n'.qs k).data = List.map (fun p =>
          (p.1, p.2.map fun r => ⟨f r.arr, f r.start, f r.dep, r.nq, r.nsys⟩)) (n.qs k).data := by
  have hf : TimeMap f := ⟨hlt, htop, hzero⟩
  refine ⟨h.t, ?_, ?_, h.numEvents, h.numAgents, fun k => ?_⟩
  · unfold Net.time
    rw [h.heap.size]
    split
    · rename_i h0
      rw [h.heap.get h0]
      cases n.heap.arr[0]? with
      | none => rfl
      | some p => simp only [Option.map_some, entry, h.time]
    · simp [htop]
  · unfold Net.description
    rw [h.heap.size, hN.nE, leastKey_same hf hN h]
    split
    · rfl
    cases Net.leastKey N n N.nE with
    | none => rfl
    | some p =>
      obtain ⟨t, e⟩ := p
      simp only [Option.map_some, entry, h.qs, nextEventDescription_map hf (hN.qc _), (hN.qc _).edge]
  · rw [h.qs]
    exact ⟨rfl, rfl, rfl, rfl⟩

/-- C125 for `simulate(t=d)`: if `f` is additive (a change of the unit), the second network has to be given the mapped
duration. -/
theorem C125_simulate_t [Add T] [Add T'] {f : T → T'} (hlt : ∀ a b, f a < f b ↔ a < b) (htop : f ⊤ = ⊤) (hzero : f 0 = 0)
    (hadd : ∀ a b, f (a + b) = f a + f b) {J : Prop} {N : NetCfg T R} {N' : NetCfg T' R} (hN : N.Conj f J N')
    {n : Net T R} {n' : Net T' R} (h : n.Same f J n') (d : T) (fuel : Nat) :
    ORel (ERel (Net.Same f J)) (n.simulateT N d fuel) (n'.simulateT N' (f d) fuel) := by
  unfold Net.simulateT
  rw [h.initialized, h.t, ← hadd]
  split
  · exact h.stepsUntil ⟨hlt, htop, hzero⟩ hN _ fuel
  · exact .some (.error _)

/-! ## C126 -/

theorem QS.map_id (s : QS T) : s.map (fun t => t) = s := by
  have ha : (Agent.map (fun t : T => t)) = id := rfl
  have hs : (Slot.map (fun t : T => t)) = id := by funext x; cases x <;> rfl
  have hr : (Row.map (fun t : T => t)) = id := rfl
  have hd : s.data.map (fun t => t) = s.data := by
    simp only [Data.map, hr, List.map_id]
    exact List.map_id _
  have hc : (fun p : (Nat × Nat) × T => (p.1, p.2)) = id := rfl
  simp only [QS.map, ha, hs, hd, hc, List.map_id]

/-- C126: two executions of any calls on a network that differ only in what stands in newly allocated memory raise the
same exception, or end in the same state of all queues, counters, clock and entries of the scheduler. -/
theorem C126_uninitialised_memory (N : NetCfg T R) (g : Nat → Nat → T × Nat) (b : Nat → Bool) (bas : Bool)
    (probs : Nat → List R) (ops : List (NetOp R)) :
    ERel (fun n n' => n' = { n with heap := n'.heap } ∧ n'.heap.size = n.heap.size ∧
        n'.heap.actualSize = n.heap.actualSize ∧ n'.heap.qtimes = n.heap.qtimes ∧
        n'.heap.arr.take n'.heap.size = n.heap.arr.take n.heap.size ∧ n'.time = n.time)
      (runCalls N ops (Net.init N b bas probs))
      (runCalls { N with garbage := g } ops (Net.init { N with garbage := g } b bas probs)) := by
  have hf : TimeMap (fun t : T => t) := ⟨fun _ _ => Iff.rfl, rfl, rfl⟩
  have hN : N.Conj (fun t : T => t) True { N with garbage := g } :=
    ⟨rfl, fun k => ⟨rfl, rfl, rfl, fun _ _ => rfl, fun _ _ => rfl, rfl, rfl, rfl, rfl, rfl⟩, rfl, rfl, rfl,
      fun _ _ _ => rfl⟩
  have h := C125_network (f := fun t : T => t) (fun _ _ => Iff.rfl) rfl rfl hN b bas probs ops
  generalize runCalls N ops (Net.init N b bas probs) = x at h ⊢
  generalize runCalls { N with garbage := g } ops (Net.init { N with garbage := g } b bas probs) = x' at h ⊢
  cases h with
  | error => exact .error _
  | ok h =>
    rename_i n n'
    have e : ∀ p : T × Nat, entry (fun t : T => t) p = p := fun _ => rfl
    have e' : entry (fun t : T => t) = id := funext e
    have ht := (C125_observed (f := fun t : T => t) (fun _ _ => Iff.rfl) rfl rfl hN h).2.1
    refine .ok ⟨?_, h.heap.size, h.heap.actualSize, ?_, ?_, ?_⟩
    · have hq : n'.qs = n.qs := by funext k; rw [h.qs, QS.map_id]
      have h1 := h.numAgents
      have h2 := h.t
      have h3 := h.numEvents
      have h4 := h.initialized
      have h5 := h.bas
      have h6 := h.probs
      have h7 := h.unifCalls
      have h8 := h.jitCalls
      obtain ⟨⟩ := n
      obtain ⟨⟩ := n'
      simp only at hq h1 h2 h3 h4 h5 h6 h7 h8
      simp only [hq, h1, h2, h3, h4, h5, h6, h7, h8]
    · rw [h.heap.qtimes]; exact List.map_id _
    · rw [h.heap.size, h.heap.entries, e', List.map_id]
    · rw [ht]
      cases n.time <;> rfl

end

/-! ## Change of the unit -/

/-- C125, the case of a new unit: `c` new units are an old one. -/
theorem C125_unit {R : Type*} [LinearOrder R] [Add R] (c : ℝ≥0∞) (h0 : c ≠ 0) (hinf : c ≠ ∞) {N N' : NetCfg ℝ≥0∞ R}
    (hN : N.Conj (fun t => c * t) True N') (b : Nat → Bool) (bas : Bool) (probs : Nat → List R) (ops : List (NetOp R)) :
    ERel (fun n n' => n.Same (fun t => c * t) True n' ∧ n'.t = c * n.t ∧ ∀ d fuel,
        ORel (ERel (Net.Same (fun t => c * t) True)) (n.simulateT N d fuel) (n'.simulateT N' (c * d) fuel))
      (runCalls N ops (Net.init N b bas probs)) (runCalls N' ops (Net.init N' b bas probs)) := by
  have hlt : ∀ x y : ℝ≥0∞, c * x < c * y ↔ x < y := fun x y => (ENNReal.mul_right_strictMono h0 hinf).lt_iff_lt
  have htop : c * ⊤ = ⊤ := ENNReal.mul_top h0
  have h := C125_network (f := fun t => c * t) hlt htop (mul_zero c) hN b bas probs ops
  generalize runCalls N ops (Net.init N b bas probs) = x at h ⊢
  generalize runCalls N' ops (Net.init N' b bas probs) = x' at h ⊢
  cases h with
  | error => exact .error _
  | ok h => exact .ok ⟨h, h.t, C125_simulate_t hlt htop (mul_zero c) (fun x y => mul_add c x y) hN h⟩

/-! ## Examples -/

/-- The demonstration network with times in half units; the delay of blocked agents is `e`. -/
def halfNet (e : ℕ∞) : NetCfg ℕ∞ Nat :=
  { demoNet with
    qc := fun k => { demoNet.qc k with
      arrivalF := fun _ t => match k with
        | 0 => t + 2 * 2
        | 1 => t + 2 * 5
        | 2 => t + 2 * 5
        | _ => t + 2 * 1
      serviceF := fun _ t => match k with
        | 0 => t + 2 * 1
        | 1 => t + 2 * 7
        | 2 => t + 2 * 2
        | _ => t + 2 * 1
      deactiveT := ⊤ }
    jit := fun _ t => t + e
    garbage := fun i j => (i, j) }

theorem two_lt (a b : ℕ∞) : 2 * a < 2 * b ↔ a < b := by
  have h2 : StrictMono fun x : ℕ∞ => 2 * x := by
    intro x y h
    exact ENat.mul_right_strictMono (by norm_num) (by decide) h
  exact h2.lt_iff_lt

/-- The demonstration network in the two units, whatever the delay of blocked agents (and with other contents of
uninitialised memory). -/
theorem halfNet_rs (e : ℕ∞) : demoNet.Conj (fun t => 2 * t) False (halfNet e) where
  nE := rfl
  qc k := by
    match k with
    | 0 | 1 | 2 | 3 =>
      exact ⟨rfl, rfl, rfl, fun _ _ => (mul_add _ _ _).symm, fun _ _ => (mul_add _ _ _).symm, rfl, rfl, rfl, rfl, rfl⟩
    | k + 4 =>
      exact ⟨rfl, rfl, rfl, fun _ _ => (mul_add _ _ _).symm, fun _ _ => (mul_add _ _ _).symm, rfl, rfl, rfl, rfl, rfl⟩
  outEdges := rfl
  maxAgents := rfl
  unif := rfl
  jit h := h.elim

/-- With the delay mapped as well. -/
theorem halfNet_bas : demoNet.Conj (fun t => 2 * t) True (halfNet (2 * 1)) :=
  ⟨rfl, (halfNet_rs _).qc, rfl, rfl, rfl, fun _ _ _ => (mul_add _ _ _).symm⟩

/-- Clock, and departures from queue 0, after `m` events. -/
def demoView (N : NetCfg ℕ∞ Nat) (bas : Bool) (m : Nat) : Option (ℕ∞ × Nat) :=
  match runCalls N (demoRun m) (Net.init N (fun _ => true) bas demoProbs) with
  | .error _ => none
  | .ok n => some (n.t, (n.qs 0).numDepartures)

/-- C125_network applies to the demonstration network: 13 events with a blocked agent. -/
example : demoNet.Conj (fun t => 2 * t) True (halfNet (2 * 1)) ∧ (∀ a b : ℕ∞, 2 * a < 2 * b ↔ a < b) ∧
    demoView demoNet true 13 = some (12, 2) ∧ demoView (halfNet (2 * 1)) true 13 = some (2 * 12, 2) :=
  ⟨halfNet_bas, two_lt, by decide +kernel, by decide +kernel⟩

/-- C125_network_rs applies to it too. -/
example : demoNet.Conj (fun t => 2 * t) False (halfNet 1) ∧ NetOp.setBlocking true ∉ demoRun 13 ∧
    demoView demoNet false 13 = some (9, 3) ∧ demoView (halfNet 1) false 13 = some (2 * 9, 3) :=
  ⟨halfNet_rs 1, by simp [demoRun], by decide +kernel, by decide +kernel⟩

/-- C125 does not hold for blocking after service with the same delay in both units (as in the code, where `EPS` is a
constant): after 13 events the numbers of departures differ, since events happen in another order. -/
theorem C125_eps_has_a_unit : demoNet.Conj (fun t => 2 * t) False (halfNet 1) ∧
    (∀ i t, demoNet.jit i t = t + 1) ∧ (∀ i t, (halfNet 1).jit i t = t + 1) ∧
    demoView demoNet true 13 = some (12, 2) ∧ demoView (halfNet 1) true 13 = some (23, 3) :=
  ⟨halfNet_rs 1, fun _ _ => rfl, fun _ _ => rfl, by decide +kernel, by decide +kernel⟩

/-- C125_queue applies: queue 0 of the demonstration network, one departure; the second queue has the doubled times. -/
example : (demoNet.qc 0).Conj (fun t => 2 * t) ((halfNet 1).qc 0) ∧
    (match runOps (demoNet.qc 0) (QS.init (demoNet.qc 0) true) [.setActive, .next, .delay (some 5) 0, .next] with
      | .error _ => none | .ok s => some (s.currentT, s.time)) = some ((4 : ℕ∞), (5 : ℕ∞)) ∧
    (match runOps ((halfNet 1).qc 0) (QS.init ((halfNet 1).qc 0) true)
        ([.setActive, .next, .delay (some 5) 0, .next].map (QOp.map fun t => 2 * t)) with
      | .error _ => none | .ok s => some (s.currentT, s.time)) = some ((2 * 4 : ℕ∞), (2 * 5 : ℕ∞)) :=
  ⟨(halfNet_rs 1).qc 0, by decide +kernel, by decide +kernel⟩

/-- C126 is about memory that is really used: in the demonstration network the scheduler has allocated more cells than
it has entries, and the two networks have different things there. -/
example : (match runCalls demoNet (demoRun 13) (Net.init demoNet (fun _ => true) true demoProbs) with
      | .error _ => none | .ok n => some (n.heap.size, n.heap.arr.drop n.heap.size)) = some (2, [(10, 0), (0, 0)]) ∧
    (match runCalls { demoNet with garbage := fun i j => (i, j) } (demoRun 13)
        (Net.init { demoNet with garbage := fun i j => (i, j) } (fun _ => true) true demoProbs) with
      | .error _ => none | .ok n => some (n.heap.size, n.heap.arr.drop n.heap.size)) = some (2, [(10, 0), (5, 3)]) := by
  constructor <;> decide +kernel

end Verif
