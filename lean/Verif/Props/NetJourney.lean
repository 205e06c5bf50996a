import Verif.NetTrip
import Verif.NetLaw
import Verif.NetProj
import Verif.Props.Net5
import Verif.Props.Queue5

/-!
# Properties of the data recorded by a network: C85, C86
-/

set_option linter.unusedSectionVars false
set_option linter.unusedSimpArgs false
set_option linter.unusedVariables false

namespace Verif.NetSpec

variable {T R : Type*} [LinearOrder T] [OrderTop T] [Zero T] [LinearOrder R] [Add R]

/-- The data are collected and kept: no `start_collecting_data`, `stop_collecting_data`, `clear_data`, `clear`. -/
def KeepData (_ : Net T R) : NetOp R → Prop
  | .collect _ _ => False
  | .clearData _ => False
  | .clear => False
  | _ => True

theorem _root_.Verif.NetHist.ids {N : NetCfg T R} (hN : N.OkA) {b : Nat → Bool} {ok : Net T R → NetOp R → Prop}
    {n : Net T R} (h : NetHist N b ok n) : Ids N n.qs :=
  ⟨(C72_ids_distinct hN h.reach).1, (C72_ids_distinct hN h.reach).2⟩

theorem _root_.Verif.NetHist.trips {N : NetCfg T R} (hN : N.OkA) {n : Net T R}
    (h : NetHist N (fun _ => true) KeepData n) : Trips N n.qs := by
  induction h with
  | new bas probs hp =>
    refine ⟨fun k _ => rfl, fun _ _ _ _ _ => rfl, fun y => ⟨[], ⟨fun _ _ => rfl, by simp, by simp, .nil⟩, ?_, ?_, ?_, ?_⟩⟩ <;>
      simp [Net.init, QS.init, agents]
  | @step n n' op h ha ho hr ih =>
    have hinv := h.reach.invA hN
    have hi := h.ids hN
    cases op with
    | step =>
      rw [NetOp.run, simulate_one] at hr
      split at hr
      · rename_i hin
        rcases step_specA hN hinv hin with ⟨n2, g1, g2, -⟩ | ⟨g1, -⟩
        · rw [g1] at hr; simp only [Except.ok.injEq] at hr; subst hr
          exact ih.step hN hinv hi g2
        · rw [g1] at hr; simp at hr
      · simp at hr
    | initialise pick a =>
      have hr : n.initialise N pick a = .ok n' := hr
      unfold Net.initialise at hr
      split at hr
      · simp at hr
      · split at hr
        · simp at hr
        · split at hr
          · simp at hr
          · split at hr
            · simp at hr
            · rename_i n1 h1
              split at hr
              · simp at hr
              · simp only [Except.ok.injEq] at hr
                subst hr
                exact (Trips.activate hN _ hinv.good hi ih h1 : Trips N n1.qs)
    | clear => exact ho.elim
    | collect v ks => exact ho.elim
    | clearData ks => exact ho.elim
    | setProbs p => simp only [NetOp.run, Except.ok.injEq] at hr; subst hr; exact ih
    | setBlocking v => simp only [NetOp.run, Except.ok.injEq] at hr; subst hr; exact ih
    | copy =>
      obtain ⟨h', g1, -⟩ := hinv.copy hN
      simp only [NetOp.run, g1, Except.ok.injEq] at hr
      subst hr; exact ih
    | setServers k m =>
      simp only [NetOp.run, Except.ok.injEq] at hr
      subst hr
      exact ih.servers hi ha.1 (hinv.good k ha.1) m
    | setInactive k =>
      simp only [NetOp.run, Except.ok.injEq] at hr
      subst hr
      exact ih.same (k := k) ha (fun y => ⟨rfl, fun _ h _ => h, id, id, le_rfl, id⟩) rfl rfl

/-- C85: the rows that a network has recorded for an agent are one journey through its graph. -/
theorem C85_journeys {N : NetCfg T R} (hN : N.OkA) {n : Net T R} (h : NetHist N (fun _ => true) KeepData n)
    (x : Nat × Nat) : ∃ V : List (Nat × Row T),
    -- the rows of each queue are the visits there, in order
    (∀ k < N.nE, (n.qs k).data.rows x = (V.filter fun p => p.1 = k).map (·.2)) ∧ (∀ p ∈ V, p.1 < N.nE) ∧
    -- the first visit is at the queue that created the agent
    (∀ p, V.head? = some p → p.1 = x.1) ∧
    -- every visit but the last is finished, and the next one begins when it ends, at an edge out of its target
    (∀ i p q, V[i]? = some p → V[i + 1]? = some q → p.2.arr ≤ p.2.start ∧ p.2.start ≤ p.2.dep ∧
      p.2.dep = q.2.arr ∧ q.1 ∈ N.outEdges (N.qc p.1).edge.tgt) ∧
    -- an agent that is waiting or in service is on its last visit; one that is scheduled has finished its last visit
    (∀ k < N.nE, x ∈ ((n.qs k).queue ++ inService (n.qs k)).map (·.id) → ∃ r, V.getLast? = some (k, r)) ∧
    (∀ k < N.nE, ∀ a ∈ agents (n.qs k).arrivals, a.id = x → (V = [] → k = x.1) ∧
      ∀ p, V.getLast? = some p → p.2.arr ≤ p.2.start ∧ p.2.start ≤ p.2.dep ∧ p.2.dep = a.time ∧
        k ∈ N.outEdges (N.qc p.1).edge.tgt) ∧
    -- an agent that is nowhere in the network was turned away by a `LossQueue` or a `ResourceQueue`, was received by a
    -- `NullQueue`, or left its resource at a `ResourceQueue` in the end
    ((∀ k < N.nE, x ∉ presentIds (n.qs k)) → ∀ p, V.getLast? = some p →
      (((N.qc p.1).kind = .loss ∨ (N.qc p.1).kind = .null ∨ (N.qc p.1).kind = .resource) ∧ p.2.start = 0 ∧
        p.2.dep = 0) ∨
      ((N.qc p.1).kind = .resource ∧ p.2.start = p.2.arr ∧ p.2.dep = p.2.arr)) := by
  obtain ⟨V, hV⟩ := (h.trips hN).trip x
  refine ⟨V, hV.rows, hV.lt, hV.first, ?_, ?_, ?_, fun hx => hV.gone ?_⟩
  · intro i p q hp hq
    have hc := List.isChain_iff_getElem.mp hV.chain i (by
      by_contra hlt
      rw [List.getElem?_eq_none (by omega)] at hq; simp at hq)
    have hi1 : i + 1 < V.length := by
      by_contra hlt
      rw [List.getElem?_eq_none (by omega)] at hq; simp at hq
    rw [List.getElem?_eq_getElem hi1] at hq
    rw [List.getElem?_eq_getElem (by omega)] at hp
    simp only [Option.some.injEq] at hp hq
    rw [hp, hq] at hc
    exact ⟨hc.1.1, hc.1.2, hc.2.1, hc.2.2⟩
  · intro k hk hm
    rw [List.map_append, List.mem_append] at hm
    rcases hm with hm | hm
    · obtain ⟨V0, r, rfl, -⟩ := hV.wait k hk hm
      exact ⟨r, by simp⟩
    · obtain ⟨V0, r, rfl, -⟩ := hV.serv k hk hm
      exact ⟨r, by simp⟩
  · intro k hk a ha hid
    obtain ⟨h1, h2⟩ := hV.sched k hk a ha hid
    exact ⟨h1, fun p hp => ⟨(h2 p hp).1.1, (h2 p hp).1.2, (h2 p hp).2⟩⟩
  · rw [mem_everyone]
    rintro ⟨k, hk, hm⟩
    exact hx k hk hm

/-- C85, in numbers: the recorded times in the queues add up to the time from the first arrival to the last
departure: nothing is counted twice and there are no gaps. -/
theorem C85_total_time {M : Type*} [AddCommGroup M] {N : NetCfg T R} (hN : N.OkA) {n : Net T R}
    (h : NetHist N (fun _ => true) KeepData n) (x : Nat × Nat) (f : T → M) : ∃ V : List (Nat × Row T),
    (∀ k < N.nE, (n.qs k).data.rows x = (V.filter fun p => p.1 = k).map (·.2)) ∧
    ∀ p q, V.head? = some p → V.getLast? = some q →
      (V.map fun v => f v.2.dep - f v.2.arr).sum = f q.2.dep - f p.2.arr := by
  obtain ⟨V, hV⟩ := (h.trips hN).trip x
  refine ⟨V, hV.rows, ?_⟩
  have hc := hV.chain
  clear hV
  induction V with
  | nil => simp
  | cons v V ih =>
    intro p q hp hq
    simp only [List.head?_cons, Option.some.injEq] at hp
    subst hp
    cases V with
    | nil => simp at hq; subst hq; simp
    | cons w V =>
      rw [List.isChain_cons_cons] at hc
      have := ih hc.2 w q rfl (by simpa using hq)
      rw [List.map_cons, List.sum_cons, this, hc.1.2.1]
      abel

/-! ### Concrete histories -/

/-- The states passed through by a run, the latest first. -/
def _root_.Verif.passNet (N : NetCfg T R) : Net T R → List (Net T R) → List (NetOp R) → List (Net T R)
  | _, L, [] => L
  | n, L, op :: ops =>
    match op.run N n with
    | .error _ => L
    | .ok n' => passNet N n' (n :: L) ops

theorem _root_.Verif.NetTraj.ofOps {N : NetCfg T R} {b : Nat → Bool} {ok : Net T R → NetOp R → Prop} {n n' : Net T R}
    {L : List (Net T R)} (ops : List (NetOp R)) (hok : ∀ op ∈ ops, ∀ n, ok n op) (h : NetTraj N b ok n L)
    (hr : runNet N n ops = some n') : NetTraj N b ok n' (passNet N n L ops) := by
  induction ops generalizing n L with
  | nil => simp only [runNet, Option.some.injEq] at hr; exact hr ▸ h
  | cons op ops ih =>
    simp only [runNet] at hr
    split at hr
    · rename_i hc
      split at hr
      · simp at hr
      · rename_i n1 h1
        simp only [passNet, h1]
        exact ih (fun o ho => hok o (List.mem_cons_of_mem _ ho))
          (h.step op (NetOp.allowed_of_check hc) (hok op List.mem_cons_self n) h1) hr
    · simp at hr

/-- The states passed through by the demonstration network. -/
def demoPass (m : Nat) : List (Net ℕ∞ Nat) :=
  passNet demoNet (Net.init demoNet (fun _ => true) true demoProbs) [] (demoRun m)

theorem demoAt_traj {m : Nat} {ok : Net ℕ∞ Nat → NetOp Nat → Prop} (hok : ∀ op ∈ demoRun m, ∀ n, ok n op)
    (h : (runNet demoNet (Net.init demoNet (fun _ => true) true demoProbs) (demoRun m)).isSome = true) :
    NetTraj demoNet (fun _ => true) ok (demoAt m) (demoPass m) := by
  obtain ⟨n', hn⟩ := Option.isSome_iff_exists.mp h
  have : demoAt m = n' := by rw [demoAt, resNet, hn]; rfl
  rw [this]
  exact NetTraj.ofOps _ hok (.new true demoProbs demoProbs_ok) hn

theorem demoRun_ok {m : Nat} {op : NetOp Nat} (h : op ∈ demoRun m) (n : Net ℕ∞ Nat) : KeepData n op ∧ LawNet n op := by
  simp only [demoRun, List.mem_cons, List.mem_replicate] at h
  rcases h with rfl | ⟨-, rfl⟩ <;> exact ⟨trivial, trivial⟩

theorem demoAt_hist : NetHist demoNet (fun _ => true) KeepData (demoAt 23) :=
  (demoAt_traj (fun _ h n => (demoRun_ok h n).1) (by decide +kernel)).hist

/-- Agent `(0, 1)` arrives at queue 0 at 4, is served at once but blocked until 11, waits at queue 2 until 12, leaves it
at 14 for the NullQueue 4. Everybody has left the network. -/
example : (List.range 5).map (fun k => (((demoAt 23).qs k).data.rows (0, 1)).map fun r => (r.arr, r.start, r.dep)) =
      [[(4, 4, 11)], [], [(11, 12, 14)], [], [(14, 0, 0)]] ∧
    everyone demoNet (demoAt 23).qs = [] := by decide +kernel

/-- `rentNet` with a ResourceQueue that has room for five more agents. -/
def lendNet : NetCfg ℕ∞ Nat :=
  { rentNet with qc := fun k => if k = 1 then { rentNet.qc k with buffer := .fin 5 } else rentNet.qc k }

theorem lendNet_ok : lendNet.OkA where
  idx := by decide
  fwd k hk := by
    obtain ⟨h1, h2⟩ := rentNet_ok.fwd k hk
    rw [lendNet]; dsimp only; split_ifs <;> exact ⟨h1, h2⟩
  out := by decide
  outLt := by decide
  jit := rentNet_ok.jit

/-- The calls that lead to `lendAt`. -/
def lendRun (m : Nat) : List (NetOp Nat) := .initialise (fun l _ => l) (.queues [0]) :: List.replicate m .step

/-- State of `lendNet` after `m` events. -/
def lendAt (m : Nat) : Net ℕ∞ Nat :=
  resNet lendNet (fun _ => true) true (fun v => List.replicate (lendNet.outEdges v).length 1) (lendRun m)

theorem lendAt_hist : NetHist lendNet (fun _ => true) KeepData (lendAt 12) := by
  have h : (runNet lendNet (Net.init lendNet (fun _ => true) true
      (fun v => List.replicate (lendNet.outEdges v).length 1)) (lendRun 12)).isSome = true := by decide +kernel
  obtain ⟨n', hn⟩ := Option.isSome_iff_exists.mp h
  rw [lendAt, resNet, hn]
  refine (NetTraj.ofOps _ (fun op ho _ => ?_) (.new true _ (fun _ => List.length_replicate)) hn).hist
  simp only [lendRun, List.mem_cons, List.mem_replicate] at ho
  rcases ho with rfl | ⟨-, rfl⟩ <;> exact trivial

/-- Agents `(0, 0)` and `(0, 1)` take a resource at the ResourceQueue 1, use it at queue 2 and bring it back: their last
visits begin and end at the same time. Nobody is left. -/
example : (List.range 3).map (fun k => (((lendAt 12).qs k).data.rows (0, 0)).map fun r => (r.arr, r.start, r.dep)) =
      [[(2, 2, 3)], [(3, 3, 7), (9, 9, 9)], [(7, 7, 9)]] ∧
    (List.range 3).map (fun k => (((lendAt 12).qs k).data.rows (0, 1)).map fun r => (r.arr, r.start, r.dep)) =
      [[(4, 4, 5)], [(5, 5, 9), (11, 11, 11)], [(9, 9, 11)]] ∧
    everyone lendNet (lendAt 12).qs = [] ∧ (lendNet.qc 1).kind = .resource := by decide +kernel

/-- C85 needs that `clear` was not called: `NullQueue.clear` keeps the data (F8), so that after `clear` and a new
simulation, at time 4, the rows of the agent that has the name of an earlier one say that it has arrived at queue 4 at
time 14. -/
theorem C85_clear_mixes :
    let n := resNet demoNet (fun _ => true) true demoProbs (demoRun 16 ++ .clear :: demoRun 3)
    NetHist demoNet (fun _ => true) (fun _ _ => True) n ∧ n.t = 4 ∧
    ((n.qs 0).data.rows (0, 1)).map (fun r => (r.arr, r.start, r.dep)) = [(4, 4, 0)] ∧
    ((n.qs 4).data.rows (0, 1)).map (fun r => (r.arr, r.start, r.dep)) = [(14, 0, 0)] := by
  refine ⟨?_, by decide +kernel⟩
  have h : (runNet demoNet (Net.init demoNet (fun _ => true) true demoProbs)
      (demoRun 16 ++ .clear :: demoRun 3)).isSome = true := by decide +kernel
  obtain ⟨n', hn⟩ := Option.isSome_iff_exists.mp h
  rw [resNet, hn]
  exact (NetTraj.ofOps _ (fun _ _ _ => trivial) (.new true demoProbs demoProbs_ok) hn).hist

/-! ## C86: Little's law in a network -/

section
variable {M : Type*} [AddCommGroup M]

/-- C86: with collection on throughout and the numbers of servers unchanged, the integral over the clock of the network
of the number in the system of a queue is the total recorded time in the system of those who left it plus the time
spent so far by those there. -/
theorem C86_little {N : NetCfg T R} (hN : N.OkA) {n : Net T R} {L : List (Net T R)}
    (h : NetTraj N (fun _ => true) LawNet n L) {k : Nat} (hk : k < N.nE) (hs : Simple (N.qc k)) (f : T → M) :
    netArea f (fun n => (n.qs k).queue.length + (inService (n.qs k)).length) n L =
      ((allRows (n.qs k).data).map fun r => if r.arr ≤ r.dep then f r.dep - f r.arr else 0).sum +
      (((n.qs k).queue.map (·.id) ++ (inService (n.qs k)).map (·.id)).map fun x =>
        f n.t - (((n.qs k).data.rows x).getLast?).elim 0 fun r => f r.arr).sum := by
  obtain ⟨l, h1, h2⟩ := h.queue (M := M) hN hk hs
  have hi := h.hist.reach.invA hN
  rw [h2 f (fun s => s.queue.length + (inService s).length) (fun s s' e1 e2 => by simp only [inService, e1, e2])]
  have := ((h1.ledger (f := f) hs (hN.fwd k hk)).tick (hi.clk k hk hs.ne_null)).a
  simp only [List.length_append, List.length_map] at this
  exact this

/-- C86, waiting. -/
theorem C86_little_queue {N : NetCfg T R} (hN : N.OkA) {n : Net T R} {L : List (Net T R)}
    (h : NetTraj N (fun _ => true) LawNet n L) {k : Nat} (hk : k < N.nE) (hs : Simple (N.qc k)) (f : T → M) :
    netArea f (fun n => (n.qs k).queue.length) n L =
      ((allRows (n.qs k).data).map fun r => if r.arr ≤ r.start then f r.start - f r.arr else 0).sum +
      (((n.qs k).queue.map (·.id)).map fun x =>
        f n.t - (((n.qs k).data.rows x).getLast?).elim 0 fun r => f r.arr).sum := by
  obtain ⟨l, h1, h2⟩ := h.queue (M := M) hN hk hs
  have hi := h.hist.reach.invA hN
  rw [h2 f (fun s => s.queue.length) (fun s s' e1 e2 => e1)]
  have := ((h1.ledger (f := f) hs (hN.fwd k hk)).tick (hi.clk k hk hs.ne_null)).aw
  simp only [List.length_map] at this
  exact this

/-- C86, service. -/
theorem C86_little_servers {N : NetCfg T R} (hN : N.OkA) {n : Net T R} {L : List (Net T R)}
    (h : NetTraj N (fun _ => true) LawNet n L) {k : Nat} (hk : k < N.nE) (hs : Simple (N.qc k)) (f : T → M) :
    netArea f (fun n => (inService (n.qs k)).length) n L =
      ((allRows (n.qs k).data).map fun r => if r.start ≤ r.dep then f r.dep - f r.start else 0).sum +
      (((inService (n.qs k)).map (·.id)).map fun x =>
        f n.t - (((n.qs k).data.rows x).getLast?).elim 0 fun r => f r.start).sum := by
  obtain ⟨l, h1, h2⟩ := h.queue (M := M) hN hk hs
  have hi := h.hist.reach.invA hN
  rw [h2 f (fun s => (inService s).length) (fun s s' e1 e2 => e2)]
  have := ((h1.ledger (f := f) hs (hN.fwd k hk)).tick (hi.clk k hk hs.ne_null)).as
  simp only [List.length_map] at this
  exact this

theorem _root_.Verif.netArea_sum (f : T → M) (g : Nat → Net T R → Nat) (ks : List Nat) (n : Net T R) (L : List (Net T R)) :
    netArea f (fun n => (ks.map fun k => g k n).sum) n L = (ks.map fun k => netArea f (g k) n L).sum := by
  induction ks with
  | nil =>
    induction L generalizing n with
    | nil => rfl
    | cons m L ih => simp only [netArea, ih]; simp
  | cons k ks ih =>
    rw [List.map_cons, List.sum_cons, ← ih]
    clear ih
    induction L generalizing n with
    | nil => simp [netArea]
    | cons m L ih =>
      simp only [List.map_cons, List.sum_cons] at ih
      simp only [netArea, ih, List.map_cons, List.sum_cons, add_smul]
      abel

/-- C86 for the whole network: once everybody has left, the integral of the number of agents at its queues is the sum of
all recorded times in the system. -/
theorem C86_little_empty {N : NetCfg T R} (hN : N.OkA) {n : Net T R} {L : List (Net T R)}
    (h : NetTraj N (fun _ => true) LawNet n L) (ks : List Nat) (hks : ∀ k ∈ ks, k < N.nE ∧ Simple (N.qc k))
    (he : ∀ k ∈ ks, (n.qs k).queue = [] ∧ inService (n.qs k) = []) (f : T → M) :
    netArea f (fun n => (ks.map fun k => (n.qs k).queue.length + (inService (n.qs k)).length).sum) n L =
      (ks.map fun k => ((allRows (n.qs k).data).map fun r => if r.arr ≤ r.dep then f r.dep - f r.arr else 0).sum).sum := by
  rw [netArea_sum f (fun k n => (n.qs k).queue.length + (inService (n.qs k)).length)]
  congr 1
  refine List.map_congr_left fun k hk => ?_
  rw [C86_little hN h (hks k hk).1 (hks k hk).2, (he k hk).1, (he k hk).2]
  simp
end

/-- The demonstration network: 37 units of time at queue 0, 21 at queue 1, 11 at queue 2. -/
example : NetTraj demoNet (fun _ => true) LawNet (demoAt 23) (demoPass 23) ∧
    (∀ k ∈ [0, 1, 2], k < demoNet.nE ∧ Simple (demoNet.qc k)) ∧
    (∀ k ∈ [0, 1, 2], ((demoAt 23).qs k).queue = [] ∧ inService ((demoAt 23).qs k) = []) ∧
    netArea QueueSpec.ratTime (fun n => ([0, 1, 2].map fun k => (n.qs k).queue.length + (inService (n.qs k)).length).sum)
      (demoAt 23) (demoPass 23) = 37 + 21 + 11 := by
  refine ⟨demoAt_traj (fun _ h n => (demoRun_ok h n).2) (by decide +kernel), ?_, by decide +kernel, by decide +kernel⟩
  unfold Simple; decide

/-- The same beside a ResourceQueue: 37 units of time at queue 0, 11 at queue 2 of `stockNet`. -/
example : NetTraj stockNet (fun _ => true) LawNet (stockAt 23)
      (passNet stockNet (Net.init stockNet (fun _ => true) true demoProbs) [] (demoRun 23)) ∧
    (∀ k ∈ [0, 2], k < stockNet.nE ∧ Simple (stockNet.qc k)) ∧
    (∀ k ∈ [0, 2], ((stockAt 23).qs k).queue = [] ∧ inService ((stockAt 23).qs k) = []) ∧
    netArea QueueSpec.ratTime (fun n => ([0, 2].map fun k => (n.qs k).queue.length + (inService (n.qs k)).length).sum)
      (stockAt 23) (passNet stockNet (Net.init stockNet (fun _ => true) true demoProbs) [] (demoRun 23)) = 37 + 11 := by
  refine ⟨?_, ?_, by decide +kernel, by decide +kernel⟩
  · have h : (runNet stockNet (Net.init stockNet (fun _ => true) true demoProbs) (demoRun 23)).isSome = true := by
      decide +kernel
    obtain ⟨n', hn⟩ := Option.isSome_iff_exists.mp h
    have : stockAt 23 = n' := by rw [stockAt, resNet, hn]; rfl
    rw [this]
    exact NetTraj.ofOps _ (fun _ h n => (demoRun_ok h n).2) (.new true demoProbs demoProbs_ok) hn
  · unfold Simple; decide

/-- C86, the rows: what C26 says of a queue by itself holds of the queues of a network. -/
theorem C86_rows {N : NetCfg T R} (hN : N.OkA) {n : Net T R} {L : List (Net T R)}
    (h : NetTraj N (fun _ => true) LawNet n L) {k : Nat} (hk : k < N.nE) (hs : Simple (N.qc k)) (x : Nat × Nat) :
    (x ∉ (n.qs k).queue.map (·.id) → x ∉ (inService (n.qs k)).map (·.id) →
      ∀ r ∈ (n.qs k).data.rows x, (r.arr ≤ r.start ∧ r.start ≤ r.dep) ∨
        ((N.qc k).kind = .loss ∧ r.start = 0 ∧ r.dep = 0)) ∧
    (x ∈ (n.qs k).queue.map (·.id) → ∃ R r, (n.qs k).data.rows x = R ++ [r] ∧ r.arr ≤ n.t ∧
      ∀ q ∈ R, (q.arr ≤ q.start ∧ q.start ≤ q.dep) ∨ ((N.qc k).kind = .loss ∧ q.start = 0 ∧ q.dep = 0)) ∧
    (x ∈ (inService (n.qs k)).map (·.id) → ∃ R r, (n.qs k).data.rows x = R ++ [r] ∧ r.arr ≤ r.start ∧ r.start ≤ n.t ∧
      ∀ q ∈ R, (q.arr ≤ q.start ∧ q.start ≤ q.dep) ∨ ((N.qc k).kind = .loss ∧ q.start = 0 ∧ q.dep = 0)) := by
  obtain ⟨l, h1, -⟩ := h.queue (M := ℤ) hN hk hs
  have hc := (h.hist.reach.invA hN).clk k hk hs.ne_null
  have hd : Reach (N.qc k) true (DataOk (N.qc k)) (n.qs k) :=
    (QueueSpec.Traj.mono (h := h1) fun _ _ h => h.1).reach
  have hi := QueueSpec.C26_rows_consistent hs (hN.fwd k hk) hd x
  refine ⟨fun h1 h2 r hr => ?_, fun h1 => ?_, fun h1 => ?_⟩
  · exact hi.1 h1 h2 r hr
  · obtain ⟨R, r, g1, g2, g3⟩ := hi.2.1 h1
    exact ⟨R, r, g1, g3.trans hc, g2⟩
  · obtain ⟨R, r, g1, g2, g3, g4⟩ := hi.2.2 h1
    exact ⟨R, r, g1, g3, g4.trans hc, g2⟩

end Verif.NetSpec
