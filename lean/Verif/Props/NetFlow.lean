import Verif.Props.NetShare

/-!
# Property C124: traffic in a network

The counters of the queues obey the laws of flows: what leaves the queues that end at a vertex arrives at the queues
that begin there, in the long run in the proportions given by the transition probabilities.
-/

set_option linter.unusedSectionVars false

namespace Verif.NetSpec

open MeasureTheory ProbabilityTheory Set Filter
open scoped ENNReal Topology

variable {T : Type*} [LinearOrder T] [OrderTop T] [Zero T]

/-- How many agents came to the queue from other queues, told from its counters: those that arrived, were turned away or are
scheduled to arrive, without those its own arrival process made. -/
def handed (s : QS T) : Int := s.numArrivals + s.lost.length + (agents s.arrivals).length - s.oArrivals

section Any

variable {R : Type*} [LinearOrder R] [Add R]

theorem EvOut.handed {c : QCfg T} {s s' : QS T} (h : EvOut c s s' none) : handed s' = handed s := by
  unfold NetSpec.handed
  cases h with
  | idle _ _ h => rw [h]
  | arr a rest _ _ _ e _ =>
    obtain ⟨ext, -, g2, g3, -⟩ := e.ext
    have h1 := e.perm.length_eq
    have h2 := g2.length_eq
    rw [e.numArrivals, e.lost, h1, h2, g3]
    simp only [List.length_append, List.length_cons]
    push_cast
    ring
  | block a rest _ _ _ _ e _ =>
    obtain ⟨ext, -, g2, g3, -⟩ := e.ext
    have h1 := e.perm.length_eq
    have h2 := g2.length_eq
    rw [e.numArrivals, e.lost, h1, h2, g3]
    simp only [List.length_append, List.length_cons, List.length_nil]
    push_cast
    ring

theorem EvOut.deps {c : QCfg T} {s s' : QS T} (h : EvOut c s s' none) : s'.numDepartures = s.numDepartures := by
  cases h with
  | idle _ _ h => rw [h]
  | arr a rest _ _ _ e _ => exact e.numDepartures
  | block a rest _ _ _ _ e _ => exact e.numDepartures

theorem handed_inactive (f : Bool) (s : QS T) : handed (if f then setInactive s else s) = handed s ∧
    (if f then setInactive s else s).numDepartures = s.numDepartures := by
  cases f <;> simp [handed, setInactive]

theorem EvA.handed {c : QCfg T} (hc : Simple c) {s s' : QS T} (h : EvA c s s' none) : handed s' = handed s := by
  cases h with
  | simple _ h => exact EvOut.handed h
  | resource hk => rcases hc with hc | hc <;> rw [hc] at hk <;> simp at hk

theorem EvA.deps {c : QCfg T} {s s' : QS T} (h : EvA c s s' none) : s'.numDepartures = s.numDepartures := by
  cases h with
  | simple _ h => exact EvOut.deps h
  | resource _ h =>
    cases h with
    | idle _ _ h => rw [h]
    | arr a rest _ _ _ _ e => exact e.numDepartures
    | block a rest _ _ _ _ _ e => exact e.numDepartures
    | deposit a had _ _ _ e => exact e.numDepartures
    | full a had _ _ _ _ e => exact e.numDepartures

theorem DepEffA.handed {c : QCfg T} {s s' : QS T} {a a' : Agent T} (h : DepEffA c s s' a a') : handed s' = handed s := by
  unfold NetSpec.handed
  cases h.out with
  | simple _ h => cases h with | dep _ _ e _ => rw [e.numArrivals, e.lost, e.arrivals, e.oArrivals]
  | resource _ h => cases h with | dep _ _ _ e => rw [e.numArrivals, e.lost, e.arrivals, e.oArrivals]

theorem RecvEffA.handed {c : QCfg T} {s s' : QS T} {a : Agent T} {off : QS T → Bool} (hk : Simple c)
    (h : RecvEffA c s s' a off) : handed s' = handed s + 1 := by
  obtain ⟨m, a1, a2, a3, a4, a5, a6, a7, a8, a9, a10, a11, a12, a13⟩ := h.mid
  have b1 : m.numArrivals = s.numArrivals := by
    unfold addArrivalAgent at a1
    rw [if_neg hk.ne_null] at a1
    split at a1
    · simp at a1
    · simp only [Except.ok.injEq] at a1; rw [← a1]; unfold bumpTime; rfl
  rw [EvA.handed hk a13.out, (handed_inactive _ _).1, NetSpec.handed, NetSpec.handed, b1, a4, a5, a8.length_eq, List.length_cons]
  push_cast
  ring

theorem Next.unique {n : Net T R} {k k' : Nat} (h : Next n k) (h' : Next n k') : k = k' := by
  obtain ⟨-, p, x, h1⟩ := h
  obtain ⟨-, p', x', h2⟩ := h'
  rw [h1] at h2
  simp only [Option.some.injEq, Prod.mk.injEq] at h2
  exact h2.2.2

/-- What the counters show of one event: nothing, or that an agent went from queue `k` to queue `e`. -/
theorem step_flow {N : NetCfg T R} (hN : N.OkA) {b : Nat → Bool} {n n' : Net T R} (hi : NetInvA N b n)
    (h : StepOutA N n n') :
    ((∀ j, (n'.qs j).numDepartures = (n.qs j).numDepartures) ∧
      (∀ j, Simple (N.qc j) → handed (n'.qs j) = handed (n.qs j)) ∧
      ∀ k a e, Wants N n k a e → (N.qc e).kind = .loss ∨ (N.qc e).kind = .resource) ∨
    ∃ k e, (∃ a, Wants N n k a e) ∧ k < N.nE ∧ e ∈ N.outEdges (N.qc k).edge.tgt ∧ e < N.nE ∧
      (∀ j, (n'.qs j).numDepartures = (n.qs j).numDepartures + if j = k then 1 else 0) ∧
      (∀ j, Simple (N.qc j) → handed (n'.qs j) = handed (n.qs j) + if j = e then 1 else 0) := by
  cases h with
  | empty h1 h2 => left; rw [h2]; exact ⟨fun _ => rfl, fun _ _ => rfl, fun k a e h => absurd h1 h.1.next.1⟩
  | idle k x hp h1 h2 h3 h4 h5 h6 h7 =>
    left; rw [h7]; refine ⟨fun _ => rfl, fun _ _ => rfl, fun k' a e h => ?_⟩
    obtain rfl := Next.unique h.1.next ⟨h2, hp, x, h6⟩
    rcases desc_casesA (hi.good k' h1) with ⟨g1, -⟩ | ⟨-, -, -, g1, -⟩ | ⟨-, -, -, g1, -⟩
    · have := h.1.dep; rw [g1] at this; exact absurd this (by decide)
    · rw [h3] at g1; exact absurd g1 (lt_irrefl _)
    · rw [h3] at g1; exact absurd g1 (lt_irrefl _)
  | arrive k s' h1 h2 h3 h4 h5 h6 h7 h8 =>
    left
    refine ⟨fun j => ?_, fun j hS => ?_, fun k' a e h => by
      obtain rfl := Next.unique h.1.next h2
      have := h.1.dep; rw [h6] at this; exact absurd this (by decide)⟩
    · rw [h8]
      by_cases hj : j = k
      · subst hj
        rw [Function.update_self]
        exact (EvA.deps h7.out).trans (handed_inactive _ _).2
      · rw [Function.update_of_ne hj]
    · rw [h8]
      by_cases hj : j = k
      · subst hj
        rw [Function.update_self]
        exact (EvA.handed hS h7.out).trans (handed_inactive _ _).1
      · rw [Function.update_of_ne hj]
  | block k e a s1 d h1 h2 h3 h4 h5 h6 h7 h8 h9 h10 h11 h12 h13 =>
    left
    have key : ∀ j, (n'.qs j).numDepartures = (n.qs j).numDepartures ∧ handed (n'.qs j) = handed (n.qs j) := by
      intro j
      rw [h13]
      by_cases hj : j = k
      · subst hj
        rw [Function.update_self]
        have := h12.out
        generalize (if n.bas then some (N.jit n.jitCalls (headTime (n.qs e).departures)) else none) = t at this
        cases this with
        | none => exact ⟨rfl, rfl⟩
        | some => exact ⟨rfl, rfl⟩
      · rw [Function.update_of_ne hj]
        by_cases hj : j = e
        · subst hj; rw [Function.update_self]; exact ⟨rfl, rfl⟩
        · rw [Function.update_of_ne hj]; exact ⟨rfl, rfl⟩
    exact ⟨fun j => (key j).1, fun j _ => (key j).2, fun k' a' e' h => by
      obtain ⟨-, -, rfl⟩ := h.unique ⟨⟨h2, h1, h8, h12.head⟩, d, h9⟩
      exact h10⟩
  | move k e a a' s1 s2 d h1 h2 h3 h4 h5 h6 h7 h8 h9 h10 h11 h12 =>
    right
    refine ⟨k, e, ⟨a, ⟨h2, h1, h7, h10.head⟩, d, h8⟩, h1, mem_outA hN hi h1 h4 h8, h3, ?_, ?_⟩
    · intro j
      rw [h12]
      have hd1 : ∀ j, (Function.update n.qs k s1 j).numDepartures = (n.qs j).numDepartures + if j = k then 1 else 0 := by
        intro j
        by_cases hj : j = k
        · subst hj; rw [Function.update_self, h10.ids.2.2.2.2, if_pos rfl]
        · rw [Function.update_of_ne hj, if_neg hj]; rfl
      by_cases hj : j = e
      · subst hj
        rw [Function.update_self, ← hd1]
        cases h11 with
        | queue g1 g2 =>
          obtain ⟨ext, gone, -, -, -, -, -, -, q, -⟩ := g2.ids
          exact q
        | null m g1 g2 g3 g4 g5 =>
          simp only [addArrivalAgent, g1, if_true, Except.ok.injEq] at g2
          rw [g5, (handed_inactive _ _).2, ← g2]
          split <;> rfl
      · rw [Function.update_of_ne hj, hd1]
    · intro j hS
      rw [h12]
      have hd1 : ∀ j, handed (Function.update n.qs k s1 j) = handed (n.qs j) := by
        intro j
        by_cases hj : j = k
        · subst hj
          rw [Function.update_self]
          exact DepEffA.handed h10
        · rw [Function.update_of_ne hj]
      by_cases hj : j = e
      · subst hj
        rw [Function.update_self, if_pos rfl, ← hd1]
        cases h11 with
        | queue g1 g2 => exact RecvEffA.handed hS g2
        | null m g1 => exact absurd g1 hS.ne_null
      · rw [Function.update_of_ne hj, hd1, if_neg hj, add_zero]

theorem simulate_pred' {N : NetCfg T R} {n n' : Net T R} {m : Nat} (h : n.simulate N (m + 1) = .ok n') :
    ∃ n1, n.simulate N m = .ok n1 ∧ n1.step N = .ok n' := by
  unfold Net.simulate at h ⊢
  split at h
  · rename_i hi
    rw [if_pos hi]
    rw [steps_succ'] at h
    cases hm : Net.steps N m n with
    | error e => rw [hm] at h; simp at h
    | ok n1 => rw [hm] at h; exact ⟨n1, rfl, h⟩
  · simp at h

/-- C124: flows. Over any number of events there are numbers `F j k`, how many agents went from queue `j` to queue `k`, such
that agents go along the edges of the graph only, `num_departures` of queue `j` grows by the sum of the `F j k` over `k`
and the number of agents that a QueueServer or LossQueue `k` got from other queues grows by the sum over `j`. -/
theorem C124_flow {N : NetCfg T R} (hN : N.OkA) {b : Nat → Bool} {n : Net T R} (h : NetReach N b n) {m : Nat} {n' : Net T R}
    (hs : n.simulate N m = .ok n') :
    ∃ F : Nat → Nat → Nat, (∀ j k, F j k ≠ 0 → j < N.nE ∧ k ∈ N.outEdges (N.qc j).edge.tgt) ∧
      (∀ j < N.nE, (n'.qs j).numDepartures = (n.qs j).numDepartures + ∑ k ∈ Finset.range N.nE, F j k) ∧
      (∀ k < N.nE, Simple (N.qc k) →
        handed (n'.qs k) = handed (n.qs k) + ((∑ j ∈ Finset.range N.nE, F j k : Nat) : Int)) := by
  have hin : n.initialized = true := by
    unfold Net.simulate at hs
    split at hs
    · assumption
    · simp at hs
  induction m generalizing n' with
  | zero =>
    rw [Net.simulate, if_pos hin, Net.steps, Except.ok.injEq] at hs
    subst hs
    exact ⟨fun _ _ => 0, by simp, by simp, by simp⟩
  | succ m ih =>
    obtain ⟨n1, h1, h2⟩ := simulate_pred' hs
    obtain ⟨F, f1, f2, f3⟩ := ih h1
    rw [Net.simulate, if_pos hin] at h1
    obtain ⟨i1, i2, -⟩ := steps_inv hN m (h.invA hN) hin h1
    have hst : StepOutA N n1 n' := by
      rcases step_specA hN i1 i2 with ⟨n2, g1, g2, -⟩ | ⟨g1, -⟩
      · rw [g1, Except.ok.injEq] at h2; exact h2 ▸ g2
      · rw [g1] at h2; simp at h2
    rcases step_flow hN i1 hst with ⟨g, g', -⟩ | ⟨k, e, -, g1, g2, g3, g4, g5⟩
    · exact ⟨F, f1, fun j hj => by rw [g j, f2 j hj], fun k hk h0 => by rw [g' k h0, f3 k hk h0]⟩
    · refine ⟨fun i j => F i j + if i = k ∧ j = e then 1 else 0, ?_, ?_, ?_⟩
      · intro i j hne
        by_cases hij : i = k ∧ j = e
        · obtain ⟨rfl, rfl⟩ := hij; exact ⟨g1, g2⟩
        · simp only [if_neg hij, add_zero] at hne; exact f1 i j hne
      · intro j hj
        rw [g4, f2 j hj, Finset.sum_add_distrib, add_assoc]
        congr 2
        by_cases hjk : j = k
        · simp [hjk, g3]
        · simp [hjk]
      · intro j hj h0
        rw [g5 j h0, f3 j hj h0, Finset.sum_add_distrib]
        push_cast
        rw [add_assoc]
        congr 2
        by_cases hje : j = e
        · simp [hje, g1]
        · simp [hje]

/-- The lists of out-edges are those of a graph: each queue is in the list of the vertex it begins at only, and once. -/
structure Graphic (N : NetCfg T R) : Prop where
  src : ∀ v, ∀ k ∈ N.outEdges v, (N.qc k).edge.src = v
  lt : ∀ v, ∀ k ∈ N.outEdges v, k < N.nE
  nodup : ∀ v, (N.outEdges v).Nodup

/-- `num_departures` of all queues that end at `v`. -/
def outOf (N : NetCfg T R) (v : Nat) (n : Net T R) : Nat :=
  ∑ j ∈ (Finset.range N.nE).filter (fun j => (N.qc j).edge.tgt = v), (n.qs j).numDepartures

/-- C124: vertices. What leaves the queues that end at a vertex at which only QueueServers and LossQueues begin, comes to these. -/
theorem C124_vertex {N : NetCfg T R} (hN : N.OkA) (hG : Graphic N) {b : Nat → Bool} {n : Net T R} (h : NetReach N b n) {m : Nat}
    {n' : Net T R} (hs : n.simulate N m = .ok n') {v : Nat} (hv : ∀ k ∈ N.outEdges v, Simple (N.qc k)) :
    (outOf N v n' : Int) - outOf N v n = ((N.outEdges v).map fun k => handed (n'.qs k) - handed (n.qs k)).sum := by
  obtain ⟨F, f1, f2, f3⟩ := C124_flow hN h hs
  have e1 : (outOf N v n' : Int) - outOf N v n =
      ((∑ j ∈ (Finset.range N.nE).filter (fun j => (N.qc j).edge.tgt = v), ∑ k ∈ Finset.range N.nE, F j k : Nat) : Int) := by
    have : outOf N v n' = outOf N v n +
        ∑ j ∈ (Finset.range N.nE).filter (fun j => (N.qc j).edge.tgt = v), ∑ k ∈ Finset.range N.nE, F j k := by
      unfold outOf
      rw [← Finset.sum_add_distrib]
      exact Finset.sum_congr rfl fun j hj => f2 j (by simpa using (Finset.mem_filter.mp hj).1)
    rw [this]; push_cast; ring
  have e2 : ((N.outEdges v).map fun k => handed (n'.qs k) - handed (n.qs k)) =
      (N.outEdges v).map fun k => ((∑ j ∈ Finset.range N.nE, F j k : Nat) : Int) := by
    refine List.map_congr_left fun k hk => ?_
    rw [f3 k (hG.lt v k hk) (hv k hk)]; ring
  rw [e1, e2, ← List.sum_toFinset _ (hG.nodup v)]
  push_cast
  rw [Finset.sum_comm]
  have hsub : (N.outEdges v).toFinset ⊆ Finset.range N.nE := by
    intro k hk; simpa using hG.lt v k (by simpa using hk)
  rw [← Finset.sum_subset hsub]
  · refine Finset.sum_congr rfl fun k hk => ?_
    rw [Finset.sum_filter]
    refine Finset.sum_congr rfl fun j hj => ?_
    split
    · rfl
    · rename_i hne
      by_contra h0
      have := (f1 j k (by intro h1; rw [h1] at h0; simp at h0)).2
      exact hne ((hG.src _ _ this).symm.trans (hG.src v k (by simpa using hk)))
  · intro k _ hk
    refine Finset.sum_eq_zero fun j hj => ?_
    by_contra h0
    have := (f1 j k (by intro h1; rw [h1] at h0; simp at h0)).2
    rw [(Finset.mem_filter.mp hj).2] at this
    exact hk (by simpa using this)

theorem balance {N : NetCfg T R} {b : Nat → Bool} {n : Net T R} (h : NetInvA N b n) {k : Nat} (hk : k < N.nE)
    (h0 : Simple (N.qc k)) :
    ((n.qs k).numDepartures : Int) = handed (n.qs k) + (n.qs k).oArrivals - (n.qs k).lost.length - (n.qs k).numTotal := by
  rcases h.good k hk with ⟨h1, h2⟩ | ⟨h1, -⟩
  · have := h2.inv h0
    have a1 := this.counts
    have a2 := this.numTotal
    unfold handed
    omega
  · exact absurd h1 h0.ne_null

/-- C124: queues. At each QueueServer and LossQueue: who left came from other queues or from outside, was not turned away and is not there any more. -/
theorem C124_queue {N : NetCfg T R} (hN : N.OkA) {b : Nat → Bool} {n : Net T R} (h : NetReach N b n) {k : Nat} (hk : k < N.nE)
    (h0 : Simple (N.qc k)) :
    ((n.qs k).numDepartures : Int) = handed (n.qs k) + (n.qs k).oArrivals - (n.qs k).lost.length - (n.qs k).numTotal :=
  balance (h.invA hN) hk h0

theorem EvOut.lost {c : QCfg T} (hc : c.kind ≠ .loss) {s s' : QS T} (h : EvOut c s s' none) : s'.lost = s.lost := by
  cases h with
  | idle _ _ h => rw [h]
  | arr a rest _ _ _ e _ => exact e.lost
  | block a rest _ _ h _ e _ => exact absurd h hc

theorem EvA.lost {c : QCfg T} (hc : c.kind = .server) {s s' : QS T} (h : EvA c s s' none) : s'.lost = s.lost := by
  cases h with
  | simple _ h => exact EvOut.lost (by rw [hc]; decide) h
  | resource hk => rw [hc] at hk; simp at hk

theorem step_lost {N : NetCfg T R} {n n' : Net T R} (h : StepOutA N n n') {j : Nat} (hj : (N.qc j).kind = .server) :
    (n'.qs j).lost = (n.qs j).lost := by
  cases h with
  | empty h1 h2 => rw [h2]
  | idle k x hp' h1 h2 h3 h4 h5 h6 h7 => rw [h7]
  | arrive k s' h1 h2 h3 h4 h5 h6 h7 h8 =>
    rw [h8]
    by_cases hjk : j = k
    · subst hjk
      rw [Function.update_self, EvA.lost hj h7.out, (maybeInactive_same _ _).2.2.2.2.2]
    · rw [Function.update_of_ne hjk]
  | block k e a s1 d h1 h2 h3 h4 h5 h6 h7 h8 h9 h10 h11 h12 h13 =>
    rw [h13]
    by_cases hjk : j = k
    · subst hjk
      rw [Function.update_self, h12.same.2.2.2.2.2.2.1]
    · rw [Function.update_of_ne hjk]
      by_cases hje : j = e
      · subst hje; rw [Function.update_self]
      · rw [Function.update_of_ne hje]
  | move k e a a2 s1 s2 d h1 h2 h3 h4 h5 h6 h7 h8 h9 h10 h11 h12 =>
    have hp1 : (Function.update n.qs k s1 j).lost = (n.qs j).lost := by
      by_cases hjk : j = k
      · subst hjk; rw [Function.update_self, h10.ids.2.2.2.1]
      · rw [Function.update_of_ne hjk]
    rw [h12]
    by_cases hje : j = e
    · subst hje
      rw [Function.update_self, ← hp1]
      cases h11 with
      | queue g1 g2 =>
        obtain ⟨m, a1, a2, a3, a4, a5, a6, a7, a8, a9, a10, a11, a12, a13⟩ := g2.mid
        rw [EvA.lost hj a13.out, (maybeInactive_same _ _).2.2.2.2.2, a5]
      | null m g1 g2 g3 g4 g5 =>
        simp only [addArrivalAgent, g1, if_true, Except.ok.injEq] at g2
        rw [g5, (maybeInactive_same _ _).2.2.2.2.2, ← g2]
        split <;> rfl
    · rw [Function.update_of_ne hje, hp1]

/-- Nobody at queue `s` is a GreedyAgent. -/
def Plain (s : QS T) : Prop :=
  (∀ a ∈ agents s.arrivals, a.kind ≠ .greedy) ∧ (∀ a ∈ s.queue, a.kind ≠ .greedy) ∧ ∀ a ∈ agents s.departures, a.kind ≠ .greedy

theorem ext_plain {c : QCfg T} (hc : c.factory ≠ .greedy) {s s' : QS T} {t : T} {rest : List (Slot T)}
    (h : ExtSpec c s s' t rest) (hr : ∀ a ∈ agents rest, a.kind ≠ .greedy) : ∀ a ∈ agents s'.arrivals, a.kind ≠ .greedy := by
  obtain ⟨ext, h1, h2, -⟩ := h
  generalize s'.nextCt = ν, s'.active = act, s'.arrCalls = n at h1
  intro a ha
  rcases List.mem_append.mp (h2.mem_iff.mp ha) with h | h
  · cases h1 <;> simp_all
  · exact hr a h

theorem EvOut.plain {c : QCfg T} (hc : c.factory ≠ .greedy) {s s' : QS T} (h : EvOut c s s' none) (hp : Plain s) : Plain s' := by
  cases h with
  | idle _ _ h => rw [h]; exact hp
  | arr a rest _ _ _ e _ =>
    have ha : a.kind ≠ .greedy := hp.1 a (e.perm.mem_iff.mpr (by simp))
    refine ⟨ext_plain hc e.ext fun x hx => hp.1 x (e.perm.mem_iff.mpr (by simp [hx])), ?_⟩
    rcases e.served with ⟨-, e2, -, e3, -, -⟩ | ⟨-, e2, -, e3, -, -⟩
    · refine ⟨by rw [e2]; exact hp.2.1, fun x hx => ?_⟩
      rcases List.mem_cons.mp (e3.mem_iff.mp hx) with rfl | hx
      · exact ha
      · exact hp.2.2 x hx
    · refine ⟨fun x hx => ?_, by rw [e3]; exact hp.2.2⟩
      rw [e2] at hx
      rcases List.mem_append.mp hx with hx | hx
      · exact hp.2.1 x hx
      · simp only [List.mem_singleton] at hx; subst hx; exact ha
  | block a rest _ _ _ _ e _ =>
    exact ⟨ext_plain hc e.ext fun x hx => hp.1 x (e.perm.mem_iff.mpr (by simp [hx])), by rw [e.queue]; exact hp.2.1,
      by rw [e.departures]; exact hp.2.2⟩

theorem Act.plain {c : QCfg T} {k k' : AgentKind} {n n' : Cap} {o o' : Nat} (h : Act c k n o k' n' o') (hk : k ≠ .greedy) :
    k' ≠ .greedy := by
  cases h <;> simp_all

theorem EvA.plain {c : QCfg T} (hc : c.factory ≠ .greedy) {s s' : QS T} (h : EvA c s s' none) (hp : Plain s) : Plain s' := by
  have gone : ∀ {a : Agent T}, ResGone s s' a → Plain s' := fun {a} e =>
    ⟨fun x hx => hp.1 x (e.perm.mem_iff.mpr (by simp [hx])), by rw [e.queue]; exact hp.2.1, by rw [e.departures]; exact hp.2.2⟩
  cases h with
  | simple _ h => exact EvOut.plain hc h hp
  | resource _ h =>
    cases h with
    | idle _ _ h => rw [h]; exact hp
    | arr a rest _ _ _ _ e =>
      have ha : a.kind ≠ .greedy := hp.1 a (e.perm.mem_iff.mpr (by simp))
      refine ⟨ext_plain hc e.ext fun x hx => hp.1 x (e.perm.mem_iff.mpr (by simp [hx])), ?_⟩
      obtain ⟨k, n, om, e0, ⟨k', -, e2, e3, e4, -⟩ | ⟨-, e2, -, -, e3, -⟩⟩ := e.served
      · refine ⟨by rw [e2]; exact hp.2.1, fun x hx => ?_⟩
        rcases List.mem_cons.mp (e4.mem_iff.mp hx) with rfl | hx
        · exact Act.plain e3 (Act.plain e0 ha)
        · exact hp.2.2 x hx
      · refine ⟨fun x hx => ?_, by rw [e3]; exact hp.2.2⟩
        rw [e2] at hx
        rcases List.mem_append.mp hx with hx | hx
        · exact hp.2.1 x hx
        · simp only [List.mem_singleton] at hx; subst hx; exact Act.plain e0 ha
    | block a rest _ _ _ _ _ e =>
      exact ⟨ext_plain hc e.ext fun x hx => hp.1 x (e.perm.mem_iff.mpr (by simp [hx])), by rw [e.queue]; exact hp.2.1,
        by rw [e.departures]; exact hp.2.2⟩
    | deposit a had _ _ _ e => exact gone e
    | full a had _ _ _ _ e => exact gone e

theorem plain_inactive (f : Bool) {s : QS T} (h : Plain s) : Plain (if f then setInactive s else s) := by
  cases f <;> simpa [Plain, setInactive] using h

theorem DepEffA.plain {c : QCfg T} {s s' : QS T} {a a' : Agent T} (h : DepEffA c s s' a a') (hp : Plain s) :
    Plain s' ∧ a'.kind ≠ .greedy := by
  cases h.out with
  | simple _ ho =>
    cases ho with
    | dep _ _ e _ =>
      obtain ⟨deps, g1, -, g3⟩ := e.served
      have hd : ∀ x ∈ agents deps, x.kind ≠ .greedy := fun x hx => hp.2.2 x (g1.mem_iff.mpr (by simp [hx]))
      refine ⟨⟨by rw [e.arrivals]; exact hp.1, ?_⟩, hp.2.2 _ (g1.mem_iff.mpr (by simp))⟩
      rcases g3 with ⟨b', rest, e1, -, e2, -, e4, -, -⟩ | ⟨-, e2, -, e3, -, -⟩
      · refine ⟨fun x hx => hp.2.1 x (by rw [e1]; rw [e2] at hx; simp [hx]), fun x hx => ?_⟩
        rcases List.mem_cons.mp (e4.mem_iff.mp hx) with rfl | hx
        · exact hp.2.1 b' (by rw [e1]; simp)
        · exact hd x hx
      · rw [e2, e3]; exact ⟨hp.2.1, hd⟩
  | resource _ ho =>
    cases ho with
    | dep y _ _ e =>
      obtain ⟨deps, g1, -, g3⟩ := e.served
      have hd : ∀ x ∈ agents deps, x.kind ≠ .greedy := fun x hx => hp.2.2 x (g1.mem_iff.mpr (by simp [hx]))
      have hy : y.kind ≠ .greedy := hp.2.2 _ (g1.mem_iff.mpr (by simp))
      rcases g3 with ⟨b', rest, k, n, om, e1, -, e5, e6, e2, e4, -⟩ | ⟨-, e6, e2, e3, -⟩
      · refine ⟨⟨by rw [e.arrivals]; exact hp.1, fun x hx => hp.2.1 x (by rw [e1]; rw [e2] at hx; simp [hx]), fun x hx => ?_⟩,
          Act.plain e6 hy⟩
        rcases List.mem_cons.mp (e4.mem_iff.mp hx) with rfl | hx
        · exact Act.plain e5 (hp.2.1 b' (by rw [e1]; simp))
        · exact hd x hx
      · exact ⟨⟨by rw [e.arrivals]; exact hp.1, by rw [e2]; exact hp.2.1, by rw [e3]; exact hd⟩, Act.plain e6 hy⟩

theorem step_plain {N : NetCfg T R} {n n' : Net T R} (hf : ∀ k < N.nE, (N.qc k).factory ≠ .greedy) (h : StepOutA N n n')
    (hp : ∀ k < N.nE, Plain (n.qs k)) : ∀ k < N.nE, Plain (n'.qs k) := by
  cases h with
  | empty h1 h2 => rw [h2]; exact hp
  | idle k x hp' h1 h2 h3 h4 h5 h6 h7 => rw [h7]; exact hp
  | arrive k s' h1 h2 h3 h4 h5 h6 h7 h8 =>
    intro j hjE
    rw [h8]
    by_cases hj : j = k
    · subst hj
      rw [Function.update_self]
      exact EvA.plain (hf j h1) h7.out (plain_inactive _ (hp j hjE))
    · rw [Function.update_of_ne hj]; exact hp j hjE
  | block k e a s1 d h1 h2 h3 h4 h5 h6 h7 h8 h9 h10 h11 h12 h13 =>
    intro j hjE
    rw [h13]
    by_cases hj : j = k
    · subst hj
      rw [Function.update_self]
      obtain ⟨rest, g1, g2⟩ := h12.deps
      refine ⟨by rw [h12.same.1]; exact (hp j hjE).1, by rw [h12.same.2.1]; exact (hp j hjE).2.1, fun x hx => ?_⟩
      rcases List.mem_cons.mp (g2.mem_iff.mp hx) with rfl | hx
      · exact (hp j hjE).2.2 a (g1.mem_iff.mpr (by simp))
      · exact (hp j hjE).2.2 x (g1.mem_iff.mpr (by simp [hx]))
    · rw [Function.update_of_ne hj]
      by_cases hj : j = e
      · subst hj; rw [Function.update_self]; exact hp j hjE
      · rw [Function.update_of_ne hj]; exact hp j hjE
  | move k e a a2 s1 s2 d h1 h2 h3 h4 h5 h6 h7 h8 h9 h10 h11 h12 =>
    obtain ⟨p1, p2⟩ := DepEffA.plain h10 (hp k h1)
    have hp1 : ∀ j < N.nE, Plain (Function.update n.qs k s1 j) := by
      intro j hjE
      by_cases hj : j = k
      · subst hj; rw [Function.update_self]; exact p1
      · rw [Function.update_of_ne hj]; exact hp j hjE
    intro j hjE
    rw [h12]
    by_cases hj : j = e
    · subst hj
      rw [Function.update_self]
      cases h11 with
      | queue g1 g2 =>
        obtain ⟨m, a1, a2, a3, a4, a5, a6, a7, a8, a9, a10, a11, a12, a13⟩ := g2.mid
        refine EvA.plain (hf j h3) a13.out (plain_inactive _ ⟨fun x hx => ?_, by rw [a10]; exact (hp1 j hjE).2.1,
          by rw [a9]; exact (hp1 j hjE).2.2⟩)
        rcases List.mem_cons.mp (a8.mem_iff.mp hx) with rfl | hx
        · exact p2
        · exact (hp1 j hjE).1 x hx
      | null m g1 g2 g3 g4 g5 =>
        simp only [addArrivalAgent, g1, if_true, Except.ok.injEq] at g2
        rw [g5]
        refine plain_inactive _ ?_
        rw [← g2]
        split
        · exact hp1 j hjE
        · exact hp1 j hjE
    · rw [Function.update_of_ne hj]; exact hp1 j hjE

/-- One event, seen from vertex `v`. -/
theorem step_vertex {N : NetCfg T R} (hN : N.OkA) (hG : Graphic N) {b : Nat → Bool} {n n' : Net T R} (hi : NetInvA N b n)
    (hin : n.initialized = true) (h : StepOutA N n n') {v : Nat} (hv : ∀ k ∈ N.outEdges v, (N.qc k).kind = .server ∨ (N.qc k).kind = .null)
    (hp : ∀ k < N.nE, Plain (n.qs k)) :
    (∃ k a e, Sent N n k a e ∧ (N.qc k).edge.tgt = v ∧ outOf N v n' = outOf N v n + 1 ∧
      ∀ x, Simple (N.qc x) → x ∈ N.outEdges v → handed (n'.qs x) = handed (n.qs x) + if x = e then 1 else 0) ∨
    ((∀ k a e, Sent N n k a e → (N.qc k).edge.tgt ≠ v) ∧ outOf N v n' = outOf N v n ∧
      ∀ x, Simple (N.qc x) → x ∈ N.outEdges v → handed (n'.qs x) = handed (n.qs x)) := by
  rcases step_flow hN hi h with ⟨g1, g1', g2⟩ | ⟨k, e, ⟨a, g0⟩, g1, g2, g3, g4, g5⟩
  · right
    refine ⟨fun k a e hs hk => ?_, ?_, fun x hx _ => g1' x hx⟩
    · suffices hm : e ∈ N.outEdges v by
        rcases g2 k a e hs.2.1 with q | q <;> rcases hv e hm with q' | q' <;> rw [q] at q' <;> simp at q'
      obtain ⟨ht, d, hd⟩ := hs.2.1
      rw [← hk]
      rcases desc_casesA (hi.good k ht.inside) with ⟨q, -⟩ | ⟨q, -⟩ | ⟨-, q, -⟩
      · rw [ht.dep] at q; exact absurd q (by decide)
      · rw [ht.dep] at q; exact absurd q (by decide)
      · exact mem_outA hN hi ht.inside q hd
    · exact Finset.sum_congr rfl fun j _ => g1 j
  · have hpl : a.kind ≠ .greedy := (hp k g1).2.2 a (mem_agents.mpr (List.mem_of_mem_head? g0.1.first))
    have hsum : outOf N v n' = outOf N v n + if (N.qc k).edge.tgt = v then 1 else 0 := by
      unfold outOf
      rw [Finset.sum_congr rfl fun j _ => g4 j, Finset.sum_add_distrib, Finset.sum_ite_eq']
      simp [g1]
    by_cases hk : (N.qc k).edge.tgt = v
    · left
      rw [if_pos hk] at hsum
      exact ⟨k, a, e, sent_of_wants hN hi hin hpl g0, hk, hsum, fun x hx _ => g5 x hx⟩
    · right
      rw [if_neg hk] at hsum
      refine ⟨fun k' a' e' hs => ?_, hsum, fun x hx hxv => ?_⟩
      · obtain ⟨rfl, -, -⟩ := hs.2.1.unique g0; exact hk
      · rw [g5 x hx, if_neg, add_zero]
        rintro rfl
        exact hk ((hG.src _ _ g2).symm.trans (hG.src _ _ hxv))

end Any

section Random

variable {N : NetCfg T ℝ} (hN : N.OkA) (hG : Graphic N) {b : Nat → Bool} {n0 : Net T ℝ} (h : NetReach N b n0)
  (hin : n0.initialized = true)
include hN hG h hin

theorem run_sends {ω : ℕ → ℝ} {v : Nat} (hv : ∀ k ∈ N.outEdges v, (N.qc k).kind = .server ∨ (N.qc k).kind = .null)
    (hf : ∀ k < N.nE, (N.qc k).factory ≠ .greedy) (hp : ∀ k < N.nE, Plain (n0.qs k)) (m : Nat) {n : Net T ℝ}
    (hs : n0.simulate (N.fed ω) m = .ok n) :
    (∀ k < N.nE, Plain (n.qs k)) ∧ ∃ l, Sends (N.fed ω) n0 v m l ∧ outOf N v n = outOf N v n0 + l.length ∧
      ∀ x ∈ N.outEdges v, Simple (N.qc x) → handed (n.qs x) = handed (n0.qs x) + l.count x := by
  induction m generalizing n with
  | zero =>
    rw [Net.simulate, if_pos hin, Net.steps, Except.ok.injEq] at hs
    subst hs
    exact ⟨hp, [], .start, by simp, by simp⟩
  | succ m ih =>
    obtain ⟨n1, h1, h2⟩ := simulate_pred' hs
    obtain ⟨p1, l, f1, f2, f3⟩ := ih h1
    obtain ⟨i1, i2, -⟩ := sim_inv hN h hin h1
    have hst : StepOutA (N.fed ω) n1 n := by
      rcases step_specA (hN.fed ω) i1 i2 with ⟨n2, g1, g2, -⟩ | ⟨g1, -⟩
      · rw [g1, Except.ok.injEq] at h2; exact h2 ▸ g2
      · rw [g1] at h2; simp at h2
    have hG' : Graphic (N.fed ω) := ⟨hG.src, hG.lt, hG.nodup⟩
    refine ⟨step_plain (N := N.fed ω) hf hst p1, ?_⟩
    rcases step_vertex (hN.fed ω) hG' i1 i2 hst hv p1 with ⟨k, a, e, g1, g2, g3, g4⟩ | ⟨g1, g2, g3⟩
    · refine ⟨l ++ [e], .sent f1 h1 g1 g2, ?_, fun x hx h0 => ?_⟩
      · rw [List.length_append, List.length_singleton, ← add_assoc, ← f2]; exact g3
      · rw [g4 x h0 hx, f3 x hx h0, List.count_append, List.count_singleton]
        push_cast
        rw [add_assoc]
        congr 2
        by_cases hxe : x = e
        · simp [hxe]
        · simp [hxe, Ne.symm hxe]
    · exact ⟨l, .other f1 h1 g1, g2.trans f2, fun x hx h0 => (g3 x h0 hx).trans (f3 x hx h0)⟩

/-- C124: long run. Suppose that all queues that begin at `v` are QueueServers or NullQueues and that there are no GreedyAgents. Almost surely:
if the departures at the queues that end at `v` go on for ever, then the share of them that comes to queue `e` tends to
the probability given for `e`. -/
theorem C124_long_run {v : Nat} (hl : Law (N.outEdges v) (n0.probs v)) (hv : ∀ k ∈ N.outEdges v, (N.qc k).kind = .server ∨ (N.qc k).kind = .null)
    (hf : ∀ k < N.nE, (N.qc k).factory ≠ .greedy) (hp : ∀ k < N.nE, Plain (n0.qs k)) {e : Nat} (he : e ∈ N.outEdges v)
    (h0 : (N.qc e).kind = .server) :
    ∀ᵐ ω ∂unifLaw, ∀ run : ℕ → Net T ℝ, (∀ m, n0.simulate (N.fed ω) m = .ok (run m)) →
      Tendsto (fun m => outOf N v (run m)) atTop atTop →
      Tendsto (fun m => ((handed ((run m).qs e) - handed (n0.qs e) : Int) : ℝ) / ((outOf N v (run m) : ℝ) - outOf N v n0)) atTop
        (𝓝 (chance (N.outEdges v) (n0.probs v) e).toReal) := by
  filter_upwards [C111_long_run hN h hin hl he] with ω hω run hrun hinf
  choose pl l l1 l2 l3 using fun m => run_sends hN hG h hin (ω := ω) hv hf hp m (hrun m)
  have hlen : Tendsto (fun m => (l m).length) atTop atTop := by
    have : (fun m => (l m).length) = fun m => outOf N v (run m) - outOf N v n0 := by
      funext m; rw [l2]; omega
    rw [this]
    exact (tendsto_sub_atTop_nat _).comp hinf
  have hpre : ∀ {m m'}, m ≤ m' → l m <+: l m' := fun {m m'} hm => by
    have := said_prefix (N := N) (n0 := n0) (ω := ω) (v := v) hm
    rwa [((sends_iff hN h hin).mp (l1 m)).2, ((sends_iff hN h hin).mp (l1 m')).2] at this
  have hbig : ∀ i, ∃ m, i < (l m).length := fun i => (hlen.eventually_gt_atTop i).exists
  choose M hM using hbig
  let f : ℕ → ℕ := fun i => (l (M i))[i]'(hM i)
  have hf' : ∀ m i (hi : i < (l m).length), (l m)[i] = f i := by
    intro m i hi
    rcases Nat.le_total m (M i) with hm | hm
    · exact (hpre hm).getElem hi
    · exact ((hpre hm).getElem (hM i)).symm
  have hmap : ∀ m, (List.range (l m).length).map f = l m := fun m => by
    refine List.ext_getElem (by simp) fun i h1 h2 => ?_
    simp only [List.getElem_map, List.getElem_range]
    exact (hf' m i h2).symm
  have hfK : ∀ K, ∃ m, Sends (N.fed ω) n0 v m ((List.range K).map f) := fun K => by
    obtain ⟨m, hm⟩ := (hlen.eventually_ge_atTop K).exists
    obtain ⟨m', h1⟩ := (l1 m).take K hm
    refine ⟨m', ?_⟩
    have : (List.range K).map f = (l m).take K := by
      rw [← hmap m, ← List.map_take, List.take_range, min_eq_left hm]
    rw [this]
    exact h1
  refine ((hω f hfK).comp hlen).congr fun m => ?_
  simp only [Function.comp_apply, hmap]
  rw [l3 m e he (.inl h0), l2 m]
  push_cast
  congr 1 <;> ring

theorem run_lost {ω : ℕ → ℝ} {e : Nat} (he : (N.qc e).kind = .server) (m : Nat) {n : Net T ℝ}
    (hs : n0.simulate (N.fed ω) m = .ok n) : (n.qs e).lost = (n0.qs e).lost := by
  induction m generalizing n with
  | zero =>
    rw [Net.simulate, if_pos hin, Net.steps, Except.ok.injEq] at hs
    rw [hs]
  | succ m ih =>
    obtain ⟨n1, h1, h2⟩ := simulate_pred' hs
    obtain ⟨i1, i2, -⟩ := sim_inv hN h hin h1
    rw [← ih h1]
    rcases step_specA (hN.fed ω) i1 i2 with ⟨n2, g1, g2, -⟩ | ⟨g1, -⟩
    · rw [g1, Except.ok.injEq] at h2; exact step_lost (N := N.fed ω) (h2 ▸ g2) he
    · rw [g1] at h2; simp at h2

/-- C124: the traffic equations. As in `C124_long_run`, `e` being a QueueServer. Let `x` grow without bound (the clock, say, or the number of events).
Almost surely: if the queues `j` that end at `v` have departure rates `rate j`, queue `e` has outside arrivals at rate `γ`
and the number of agents at queue `e` grows slower than `x`, then queue `e` has a departure rate and it is `γ` plus the probability given for
`e` times the sum of the `rate j`. -/
theorem C124_traffic_equations {v : Nat} (hl : Law (N.outEdges v) (n0.probs v)) (hv : ∀ k ∈ N.outEdges v, (N.qc k).kind = .server ∨ (N.qc k).kind = .null)
    (hf : ∀ k < N.nE, (N.qc k).factory ≠ .greedy) (hp : ∀ k < N.nE, Plain (n0.qs k)) {e : Nat} (he : e ∈ N.outEdges v)
    (h0 : (N.qc e).kind = .server) :
    ∀ᵐ ω ∂unifLaw, ∀ run : ℕ → Net T ℝ, (∀ m, n0.simulate (N.fed ω) m = .ok (run m)) →
      ∀ (x : ℕ → ℝ) (rate : ℕ → ℝ) (γ : ℝ), Tendsto x atTop atTop →
      (∀ j < N.nE, (N.qc j).edge.tgt = v → Tendsto (fun m => (((run m).qs j).numDepartures : ℝ) / x m) atTop (𝓝 (rate j))) →
      Tendsto (fun m => (((run m).qs e).oArrivals : ℝ) / x m) atTop (𝓝 γ) →
      Tendsto (fun m => (((run m).qs e).numTotal : ℝ) / x m) atTop (𝓝 0) →
      Tendsto (fun m => (((run m).qs e).numDepartures : ℝ) / x m) atTop
        (𝓝 (γ + (chance (N.outEdges v) (n0.probs v) e).toReal *
          ∑ j ∈ (Finset.range N.nE).filter (fun j => (N.qc j).edge.tgt = v), rate j)) := by
  filter_upwards [C124_long_run hN hG h hin hl hv hf hp he h0] with ω hω run hrun x rate γ hx hrate hγ htot
  set p := (chance (N.outEdges v) (n0.probs v) e).toReal
  choose pl l l1 l2 l3 using fun m => run_sends hN hG h hin (ω := ω) hv hf hp m (hrun m)
  have hconst : ∀ c : ℝ, Tendsto (fun m => c / x m) atTop (𝓝 0) := fun c => hx.const_div_atTop c
  have hout : Tendsto (fun m => (outOf N v (run m) : ℝ) / x m) atTop
      (𝓝 (∑ j ∈ (Finset.range N.nE).filter (fun j => (N.qc j).edge.tgt = v), rate j)) := by
    have : (fun m => (outOf N v (run m) : ℝ) / x m) = fun m =>
        ∑ j ∈ (Finset.range N.nE).filter (fun j => (N.qc j).edge.tgt = v), (((run m).qs j).numDepartures : ℝ) / x m := by
      funext m; unfold outOf; push_cast; rw [Finset.sum_div]
    rw [this]
    exact tendsto_finsetSum _ fun j hj => hrate j (by simpa using (Finset.mem_filter.mp hj).1) (Finset.mem_filter.mp hj).2
  generalize ∑ j ∈ (Finset.range N.nE).filter (fun j => (N.qc j).edge.tgt = v), rate j = Λ at hout ⊢
  have hcount : Tendsto (fun m => ((l m).count e : ℝ) / x m) atTop (𝓝 (p * Λ)) := by
    have hmono : Monotone fun m => outOf N v (run m) := monotone_nat_of_le_succ fun m => by
      rw [l2, l2]
      have := said_prefix (N := N) (n0 := n0) (ω := ω) (v := v) (Nat.le_succ m)
      rw [((sends_iff hN h hin).mp (l1 m)).2, ((sends_iff hN h hin).mp (l1 (m + 1))).2] at this
      have := this.length_le
      omega
    rcases tendsto_atTop_of_monotone hmono with hinf | ⟨B, hB⟩
    · have h1 := hω run hrun hinf
      have h2 : Tendsto (fun m => ((outOf N v (run m) : ℝ) - outOf N v n0) / x m) atTop (𝓝 Λ) := by
        have := hout.sub (hconst (outOf N v n0))
        simpa [sub_div] using this
      refine (h1.mul h2).congr' ?_
      filter_upwards [hinf.eventually_gt_atTop (outOf N v n0)] with m hm
      have hne : (outOf N v (run m) : ℝ) - outOf N v n0 ≠ 0 := by
        have : (outOf N v n0 : ℝ) < outOf N v (run m) := by exact_mod_cast hm
        linarith
      rw [l3 m e he (.inl h0)]
      push_cast
      field_simp
      ring
    · have hev : ∀ᶠ m in atTop, outOf N v (run m) = B := by simpa using hB
      have hΛ : Λ = 0 := by
        refine tendsto_nhds_unique hout ((hconst B).congr' ?_)
        filter_upwards [hev] with m hm
        rw [hm]
      rw [hΛ, mul_zero]
      refine tendsto_of_tendsto_of_tendsto_of_le_of_le' tendsto_const_nhds (hconst B) ?_ ?_
      · filter_upwards [hx.eventually_gt_atTop 0] with m hm
        positivity
      · filter_upwards [hx.eventually_gt_atTop 0, hev] with m hm hm2
        have h1 : (l m).count e ≤ B := by
          have := List.count_le_length (a := e) (l := l m)
          have := l2 m
          omega
        have : ((l m).count e : ℝ) ≤ B := by exact_mod_cast h1
        gcongr
  have hfin := ((hcount.add hγ).sub htot).add (hconst ((handed (n0.qs e) : ℝ) - (n0.qs e).lost.length))
  rw [sub_zero, add_zero, add_comm] at hfin
  refine hfin.congr fun m => ?_
  obtain ⟨i1, -, -⟩ := sim_inv hN h hin (hrun m)
  have hb := balance i1 (hG.lt v e he) (.inl h0)
  rw [l3 m e he (.inl h0), run_lost hN hG h hin h0 m (hrun m)] at hb
  have hb' : (((run m).qs e).numDepartures : ℝ) = handed (n0.qs e) + (l m).count e + ((run m).qs e).oArrivals -
      (n0.qs e).lost.length - ((run m).qs e).numTotal := by exact_mod_cast hb
  rw [hb']
  ring

end Random

/-- The demo network, with vertices 0, ..., 3; queue 0 is a ResourceQueue. -/
def flowNet : NetCfg ℕ∞ Nat :=
  { demoNet with
    qc := fun k => if k = 0 then { demoNet.qc k with kind := .resource } else demoNet.qc k
    outEdges := fun v => if v < 4 then demoNet.outEdges v else [] }

def flowProbs (v : Nat) : List Nat := if v < 4 then demoProbs v else []

theorem flowProbs_ok : ∀ v, (flowProbs v).length = (flowNet.outEdges v).length := by
  intro v
  by_cases h : v < 4
  · simp only [flowProbs, flowNet, if_pos h]; exact demoProbs_ok v
  · simp [flowProbs, flowNet, h]

theorem flow_ok : flowNet.OkA where
  idx k hk := by rw [flowNet]; dsimp only; split_ifs <;> exact demoNet_ok.idx k hk
  fwd k hk := by
    obtain ⟨h1, h2⟩ := demoNet_ok.fwd k hk
    rw [flowNet]; dsimp only; split_ifs <;> exact ⟨h1, h2⟩
  out := by decide
  outLt := by decide
  jit := demoNet_ok.jit

/-- Over 12 events agents leave queue 0 and come to the queues 1 and 2 that begin at its end. -/
def flowStart : Net ℕ∞ Nat := resNet flowNet (fun _ => true) true flowProbs [.initialise (fun l _ => l) (.queues [0])]

def flowEnd : Net ℕ∞ Nat := match flowStart.simulate flowNet 12 with
  | .ok n => n
  | .error _ => flowStart

theorem flow_run : flowStart.simulate flowNet 12 = .ok flowEnd := by
  have h : (match flowStart.simulate flowNet 12 with | .ok _ => true | .error _ => false) = true := by decide +kernel
  unfold flowEnd
  cases hs : flowStart.simulate flowNet 12 with
  | ok n => rfl
  | error e => rw [hs] at h; simp at h

theorem flow_graph : Graphic flowNet where
  src v k hk := by
    by_cases h : v < 4
    · have : ∀ v < 4, ∀ k ∈ flowNet.outEdges v, (flowNet.qc k).edge.src = v := by decide
      exact this v h k hk
    · simp [flowNet, h] at hk
  lt v k hk := by
    by_cases h : v < 4
    · have : ∀ v < 4, ∀ k ∈ flowNet.outEdges v, k < flowNet.nE := by decide
      exact this v h k hk
    · simp [flowNet, h] at hk
  nodup v := by
    by_cases h : v < 4
    · have : ∀ v < 4, (flowNet.outEdges v).Nodup := by decide
      exact this v h
    · simp [flowNet, h]

example : NetReach flowNet (fun _ => true) flowStart ∧ outOf flowNet 1 flowStart = 0 ∧ outOf flowNet 1 flowEnd = 3 ∧
    handed (flowEnd.qs 1) = 2 ∧ handed (flowEnd.qs 2) = 1 ∧ handed (flowStart.qs 1) = 0 ∧ handed (flowStart.qs 2) = 0 :=
  ⟨reachNet _ _ _ _ _ flowProbs_ok, by decide +kernel⟩

example : ∀ k ∈ flowNet.outEdges 1, Simple (flowNet.qc k) := by unfold Simple; decide

/-- C124: at ResourceQueues the counters do not tell who came. In the third event of `resLoopNet` an agent takes a resource as
it leaves queue 0, a loop, goes to queue 0, leaves the resource there and is gone, and no counter shows that it came. -/
theorem C124_resource_uncounted : (resLoopNet.qc 0).kind = .resource ∧ Wants resLoopNet (resLoopAt 2) 0 ⟨(1, 0), 7, 0, .resource false true⟩ 0 ∧
    (resLoopAt 2).simulate resLoopNet 1 = .ok (resLoopAt 3) ∧
    ((resLoopAt 3).qs 0).numDepartures = ((resLoopAt 2).qs 0).numDepartures + 1 ∧
    handed ((resLoopAt 3).qs 0) = handed ((resLoopAt 2).qs 0) ∧ ((resLoopAt 3).qs 0).numBlocked = ((resLoopAt 2).qs 0).numBlocked := by
  have hp : ((resLoopAt 2).heap.pop.map (·.2)) = some (some (7, 0)) := by decide +kernel
  refine ⟨rfl, ⟨⟨⟨by decide +kernel, ?_⟩, by decide +kernel, by decide +kernel, by decide +kernel⟩, 1, by decide +kernel⟩,
    resNet_step (ops := .initialise (fun l _ => l) (.queues [1]) :: List.replicate 2 .step) (by decide +kernel), by decide +kernel,
    by decide +kernel, by decide +kernel⟩
  cases hq : (resLoopAt 2).heap.pop with
  | none => rw [hq] at hp; simp at hp
  | some r =>
    rw [hq] at hp
    simp only [Option.map_some, Option.some.injEq] at hp
    exact ⟨r.1, 7, by rw [← hp]⟩

/-! ## A network in which one agent goes round for ever -/

/-- Queue 0 is a loop at vertex 0, queue 1 leads from vertex 0 to vertex 1 and queue 2 back; all have infinitely many servers and
service takes one unit of time. One agent enters at queue 0. -/
noncomputable def roundNet : NetCfg ℕ∞ ℝ where
  nE := 3
  qc k := match k with
    | 0 => { demoQ .server 0 0 0 1 2 1 .inf with servers := .inf, activeCap := .fin 1 }
    | 1 => { demoQ .server 0 1 1 1 2 1 .inf with servers := .inf }
    | _ => { demoQ .server 1 0 k 1 2 1 .inf with servers := .inf }
  outEdges v := match v with
    | 0 => [0, 1]
    | 1 => [2]
    | _ => []
  maxAgents := .inf
  unif _ := 0
  jit _ t := t + 1
  garbage _ _ := (0, 0)

noncomputable def roundProbs (v : Nat) : List ℝ := match v with
  | 0 => [1 / 4, 3 / 4]
  | 1 => [1]
  | _ => []

/-- After `initialize(queues=0)` and `simulate(n=1)`: the agent is in service at queue 0. -/
noncomputable def roundStart : Net ℕ∞ ℝ :=
  resNet roundNet (fun _ => true) true roundProbs [.initialise (fun l _ => l) (.queues [0]), .step]

theorem round_cases {k : Nat} (hk : k < roundNet.nE) : k = 0 ∨ k = 1 ∨ k = 2 := by
  have : k < 3 := hk
  omega

theorem round_ok : roundNet.Ok where
  idx := by
    intro k hk
    rcases round_cases hk with rfl | rfl | rfl <;> rfl
  kinds := by
    intro k hk
    rcases round_cases hk with rfl | rfl | rfl <;> exact .inl (.inl rfl)
  fwd := by
    intro k hk
    refine ⟨fun n t => ?_, fun n t => ?_⟩ <;> rcases round_cases hk with rfl | rfl | rfl <;> exact le_self_add
  out := by
    intro k hk _
    rcases round_cases hk with rfl | rfl | rfl <;> simp [roundNet, demoQ]
  outLt := by
    intro k hk _
    rcases round_cases hk with rfl | rfl | rfl <;> simp [roundNet, demoQ]
  jit := fun _ _ => le_self_add

theorem round_graph : Graphic roundNet where
  src v k hk := by
    match v with
    | 0 => simp only [roundNet, List.mem_cons, List.not_mem_nil, or_false] at hk; rcases hk with rfl | rfl <;> rfl
    | 1 => simp only [roundNet, List.mem_cons, List.not_mem_nil, or_false] at hk; subst hk; rfl
    | _ + 2 => simp [roundNet] at hk
  lt v k hk := by
    match v with
    | 0 => simp only [roundNet, List.mem_cons, List.not_mem_nil, or_false] at hk; rcases hk with rfl | rfl <;> decide
    | 1 => simp only [roundNet, List.mem_cons, List.not_mem_nil, or_false] at hk; subst hk; decide
    | _ + 2 => simp [roundNet] at hk
  nodup v := by
    match v with
    | 0 => simp [roundNet]
    | 1 => simp [roundNet]
    | _ + 2 => simp [roundNet]

theorem round_probs : ∀ v, (roundProbs v).length = (roundNet.outEdges v).length := by
  intro v
  match v with
  | 0 | 1 => rfl
  | _ + 2 => rfl

theorem round_reach : NetReach roundNet (fun _ => true) roundStart := reachNet _ _ _ _ _ round_probs

theorem round_init : roundStart.initialized = true := by decide +kernel

theorem round_prob : roundStart.probs = roundProbs := rfl

theorem round_law : Law (roundNet.outEdges 0) (roundStart.probs 0) := by
  rw [round_prob]
  exact ⟨by decide, rfl, by
    intro x hx
    simp only [roundProbs, List.mem_cons, List.not_mem_nil, or_false] at hx
    rcases hx with rfl | rfl <;> norm_num, by norm_num [roundProbs]⟩

theorem round_chance : (chance (roundNet.outEdges 0) (roundStart.probs 0) 1).toReal = 3 / 4 := by
  rw [round_prob, show roundNet.outEdges 0 = [0, 1] from rfl]
  norm_num [chance, roundProbs]

/-- The agent is in service at queue `k`; nobody else is there or will come. -/
structure Round (n : Net ℕ∞ ℝ) (k : Nat) : Prop where
  lt : k < 3
  quiet : ∀ j < 3, (n.qs j).active = false ∧ (n.qs j).numServers = .inf ∧ (n.qs j).queue = [] ∧ agents (n.qs j).arrivals = []
  here : ∃ a : Agent ℕ∞, agents (n.qs k).departures = [a] ∧ a.time < ⊤
  alone : ∀ j < 3, j ≠ k → agents (n.qs j).departures = []
  made : ∀ j < 3, (n.qs j).oArrivals = if j = 0 then 1 else 0

theorem round_server (k : Nat) : (roundNet.qc k).kind = .server := by
  match k with
  | 0 | 1 => rfl
  | _ + 2 => rfl

theorem round_svc (k i : Nat) {t : ℕ∞} (ht : t < ⊤) : (roundNet.qc k).serviceF i t < ⊤ := by
  lift t to ℕ using ht.ne with y
  match k with
  | 0 | 1 => exact ENat.natCast_lt_top (y + 1)
  | _ + 2 => exact ENat.natCast_lt_top (y + 1)

theorem round_fin (ω : ℕ → ℝ) : (roundNet.fed ω).FinSvc where
  svc k _ _ i t ht := round_svc k i ht
  jit i t ht := by
    lift t to ℕ using ht.ne with y
    exact ENat.natCast_lt_top (y + 1)
  servers k hk _ m hm := by
    rcases round_cases hk with rfl | rfl | rfl <;> simp [roundNet, NetCfg.fed] at hm
  buffer k hk _ m hm := by
    rcases round_cases hk with rfl | rfl | rfl <;> simp [roundNet, demoQ, NetCfg.fed] at hm

theorem Round.step {b : Nat → Bool} {ω : ℕ → ℝ} {n : Net ℕ∞ ℝ} {k0 : Nat} (hi : NetInv (roundNet.fed ω) b n)
    (hiA : NetInvA (roundNet.fed ω) b n) (hin : n.initialized = true) (hr : Round n k0) :
    ∃ n', n.step (roundNet.fed ω) = .ok n' ∧
      ((∃ e ∈ roundNet.outEdges (roundNet.qc k0).edge.tgt, Round n' e ∧
        outOf roundNet 0 n' = outOf roundNet 0 n + if (roundNet.qc k0).edge.tgt = 0 then 1 else 0) ∨
        (n'.qs = n.qs ∧ n'.heap.size < n.heap.size)) := by
  have hN := round_ok.fed ω
  obtain ⟨a, ha, hat⟩ := hr.here
  have hgood : ∀ j < 3, Reach ((roundNet.fed ω).qc j) (b j) NetOk (n.qs j) := fun j hj => by
    rcases hi.good j hj with ⟨-, h⟩ | ⟨h, -⟩
    · exact h
    · have := round_server j
      rw [show (roundNet.fed ω).qc j = roundNet.qc j from rfl, this] at h
      exact absurd h (by decide)
  have hS : ∀ j, Simple ((roundNet.fed ω).qc j) := fun j => .inl (round_server j)
  have hA : ∀ j < 3, headTime (n.qs j).arrivals = ⊤ := fun j hj =>
    ((hgood j hj).base (hS j)).okA.top_of_nil (hr.quiet j hj).2.2.2
  have htop : ∀ j < 3, j ≠ k0 → (n.qs j).time = ⊤ := fun j hj hne => by
    rw [((hgood j hj).base (hS j)).time, nextTime, hA j hj, ((hgood j hj).base (hS j)).okD.top_of_nil (hr.alone j hj hne), min_self]
  have htm : (n.qs k0).time < ⊤ := by
    rw [((hgood k0 hr.lt).base (hS k0)).time, nextTime]
    exact (min_le_right _ _).trans_lt ((((hgood k0 hr.lt).base (hS k0)).okD.le a (by rw [ha]; simp)).trans_lt hat)
  have hfirst : ∀ k, k < 3 → (n.qs k).time < ⊤ → k = k0 := by
    intro k hk h
    by_contra hne
    rw [htop k hk hne] at h
    exact absurd h (lt_irrefl _)
  rcases step_spec hN hi hin with ⟨n', g1, g2, g3⟩ | ⟨-, g1, -⟩
  swap
  · exact absurd (.inl (round_fin ω)) g1
  refine ⟨n', g1, ?_⟩
  have hst : StepOutA (roundNet.fed ω) n n' := by
    rcases step_specA hN.okA hiA hin with ⟨n2, q1, q2, -⟩ | ⟨q1, -⟩
    · rw [g1, Except.ok.injEq] at q1; exact q1 ▸ q2
    · rw [g1] at q1; simp at q1
  have hfl := step_flow hN.okA hiA hst
  cases g2 with
  | empty h => exact absurd h (nonempty_of_event hi ⟨k0, hr.lt, htm⟩)
  | idle k x hp h1 h2 h3 h4 h5 h6 h7 => exact .inr ⟨by rw [h7], by rw [h7]; exact pop_shrinks hi h2 h6⟩
  | arrive k s' h1 h2 h3 h4 h5 h6 h7 h8 =>
    obtain rfl := hfirst k h1 h4
    rcases desc_cases (hi.good k h1) with ⟨g1, -⟩ | ⟨-, -, -, g1, g2, -⟩ | ⟨g1, -⟩
    · rw [g1] at h6; exact absurd h6 (by decide)
    · rw [g2, hA k h1] at g1; exact absurd g1 (lt_irrefl _)
    · rw [g1] at h6; exact absurd h6 (by decide)
  | block k e a s1 d h1 h2 h3 h4 h5 h6 h7 h8 h9 h10 =>
    have := round_server e
    rw [show (roundNet.fed ω).qc e = roundNet.qc e from rfl, this] at h10
    exact absurd h10 (by decide)
  | move k e a' s1 s2 d h1 h2 h3 h4 h5 h6 h7 h8 h9 h10 h11 h12 =>
    obtain rfl := hfirst k h1 h5
    left
    have hW : Wants (roundNet.fed ω) n k a' e := ⟨⟨h2, h1, h7, h10.head⟩, d, h8⟩
    refine ⟨e, mem_out hN hi h1 h4 h8, ?_, ?_⟩
    · -- the agent's departure
      obtain ⟨deps, z1, z2, z3⟩ := h10.spec.served
      rw [ha] at z1
      have zz := List.perm_singleton.mp z1.symm
      simp only [List.cons.injEq] at zz
      obtain ⟨rfl, zn⟩ := zz
      have hs1 : s1.queue = [] ∧ agents s1.departures = [] := by
        rcases z3 with ⟨b', r', z4, -⟩ | ⟨-, z4, -, z5, -⟩
        · rw [(hr.quiet k h1).2.2.1] at z4; simp at z4
        · rw [z4, z5]; exact ⟨(hr.quiet k h1).2.2.1, zn⟩
      have hmid : ∀ j < 3, (Function.update n.qs k s1 j).active = false ∧ (Function.update n.qs k s1 j).numServers = .inf ∧
          (Function.update n.qs k s1 j).queue = [] ∧ agents (Function.update n.qs k s1 j).arrivals = [] ∧
          agents (Function.update n.qs k s1 j).departures = [] ∧
          (Function.update n.qs k s1 j).oArrivals = if j = 0 then 1 else 0 := by
        intro j hj
        obtain ⟨q1, q2, q3, q4⟩ := hr.quiet j hj
        by_cases hjk : j = k
        · subst hjk
          rw [Function.update_self, h10.spec.active, h10.spec.numServers, h10.spec.arrivals, h10.spec.oArrivals]
          exact ⟨q1, q2, hs1.1, q4, hs1.2, hr.made j hj⟩
        · rw [Function.update_of_ne hjk]
          exact ⟨q1, q2, q3, q4, hr.alone j hj hjk, hr.made j hj⟩
      cases h11 with
      | null m q1 => have := (hS e).ne_null; exact absurd q1 this
      | queue q1 q2 =>
        obtain ⟨m, a1, a2, a3, a4, a5, a6, a7, a8, a9, a10, a11, a12, a13⟩ := q2.mid
        obtain ⟨w1, w2, w3, w4, w5, w6⟩ := hmid e h3
        have hoff : (if stopAt (roundNet.fed ω) n k e s1.numTotal m = true then setInactive m else m) = m := by
          rw [if_neg]; rw [stopAt, a3, w1]; simp
        rw [hoff] at a13
        have hnew : s2.active = false ∧ s2.numServers = .inf ∧ s2.queue = [] ∧ agents s2.arrivals = [] ∧
            s2.oArrivals = (if e = 0 then 1 else 0) ∧ ∃ y : Agent ℕ∞, agents s2.departures = [y] ∧ y.time < ⊤ := by
          rw [w4] at a8
          have a8' := List.perm_singleton.mp a8
          cases a13.out with
          | idle h _ _ =>
            have hok : HeapOK (Function.update n.qs k s1 e).arrivals ∧
                (Function.update n.qs k s1 e).time = nextTime (Function.update n.qs k s1 e) := by
              by_cases hek : e = k
              · subst hek
                rw [Function.update_self, h10.spec.arrivals]
                exact ⟨((hgood e h3).base (hS e)).okA, h10.spec.time⟩
              · rw [Function.update_of_ne hek]
                exact ⟨((hgood e h3).base (hS e)).okA, ((hgood e h3).base (hS e)).time⟩
            obtain ⟨arr, r1, r2, r3, r4⟩ := handover_spec _ _ a' (hS e).ne_null hok.1 hok.2
            rw [a1, Except.ok.injEq] at r4
            rw [r4] at h
            simp only at h
            rw [r3] at h
            exact absurd (h ▸ min_le_left _ _ : (⊤ : ℕ∞) ≤ a'.time) (not_le.mpr hat)
          | block _ _ _ _ h =>
            have := round_server e
            rw [show (roundNet.fed ω).qc e = roundNet.qc e from rfl, this] at h
            exact absurd h (by decide)
          | arr x rest _ _ _ sp _ =>
            have hpx := sp.perm
            rw [a8'] at hpx
            have := List.perm_singleton.mp hpx.symm
            simp only [List.cons.injEq] at this
            obtain ⟨rfl, hrest⟩ := this
            obtain ⟨ext, x1, x2, x3, x4⟩ := sp.ext
            rw [hrest, List.append_nil] at x2
            rcases sp.served with ⟨y1, y2, y3, y4, -⟩ | ⟨y1, -⟩
            swap
            · rw [a7, w2] at y1; simp [Cap.le] at y1
            rw [a9, w5] at y4
            have hx : s2.active = false ∧ ext = [] := by
              generalize s2.nextCt = ν, s2.active = act, s2.arrCalls = calls at x1
              rw [w1] at a3
              cases x1 with
              | inactive h => exact ⟨rfl, rfl⟩
              | early h => rw [a3] at h; simp at h
              | off h => rw [a3] at h; simp at h
              | new h => rw [a3] at h; simp at h
            refine ⟨hx.1, by rw [sp.numServers, a7, w2], by rw [y2, a10, w3], ?_, ?_, _, List.perm_singleton.mp y4, ?_⟩
            · rw [hx.2] at x2; exact List.perm_nil.mp x2
            · rw [x3, hx.2, a4, w6]; rfl
            · exact round_svc e _ hat
        refine ⟨h3, fun j hj => ?_, ?_, fun j hj hne => ?_, fun j hj => ?_⟩
        · rw [h12]
          by_cases hje : j = e
          · subst hje; rw [Function.update_self]; exact ⟨hnew.1, hnew.2.1, hnew.2.2.1, hnew.2.2.2.1⟩
          · rw [Function.update_of_ne hje]; obtain ⟨w1, w2, w3, w4, w5, w6⟩ := hmid j hj; exact ⟨w1, w2, w3, w4⟩
        · rw [h12, Function.update_self]; exact hnew.2.2.2.2.2
        · rw [h12, Function.update_of_ne hne]; exact (hmid j hj).2.2.2.2.1
        · rw [h12]
          by_cases hje : j = e
          · subst hje; rw [Function.update_self]; exact hnew.2.2.2.2.1
          · rw [Function.update_of_ne hje]; exact (hmid j hj).2.2.2.2.2
    · rcases hfl with ⟨-, -, q⟩ | ⟨k', e', ⟨a'', q0⟩, q1, q2, q3, q4, q5⟩
      · have := q k a' e hW
        rw [show (roundNet.fed ω).qc e = roundNet.qc e from rfl, round_server e] at this
        exact absurd this (by decide)
      · obtain ⟨rfl, -, -⟩ := q0.unique hW
        unfold outOf
        rw [Finset.sum_congr rfl fun j _ => q4 j, Finset.sum_add_distrib, Finset.sum_ite_eq']
        simp [show k' < roundNet.nE from q1]

theorem round_start : Round roundStart 0 where
  lt := by decide
  quiet := by decide +kernel
  here := ⟨⟨(0, 0), 3, 0, .plain⟩, by decide +kernel, by decide⟩
  alone := by decide +kernel
  made := by decide +kernel

theorem round_plain : ∀ k < roundNet.nE, Plain (roundStart.qs k) := by
  intro k hk
  obtain ⟨-, -, q3, q4⟩ := round_start.quiet k hk
  refine ⟨by rw [q4]; simp, by rw [q3]; simp, ?_⟩
  by_cases h : k = 0
  · subst h
    rw [show agents (roundStart.qs 0).departures = [⟨(0, 0), 3, 0, .plain⟩] by decide +kernel]
    simp
  · rw [round_start.alone k hk h]; simp

/-- The agent never stops. -/
theorem round_goes_on (ω : ℕ → ℝ) : ∃ run : ℕ → Net ℕ∞ ℝ, (∀ m, roundStart.simulate (roundNet.fed ω) m = .ok (run m)) ∧
    Tendsto (fun m => outOf roundNet 0 (run m)) atTop atTop ∧ ∀ m, ∃ k, Round (run m) k := by
  have hs1 : ∀ {m : Nat} {n n' : Net ℕ∞ ℝ}, roundStart.simulate (roundNet.fed ω) m = .ok n → n.step (roundNet.fed ω) = .ok n' →
      roundStart.simulate (roundNet.fed ω) (m + 1) = .ok n' := by
    intro m n n' h1 h2
    rw [Net.simulate, if_pos round_init] at h1 ⊢
    rw [steps_succ', h1]
    exact h2
  have hex : ∀ m, ∃ n k, roundStart.simulate (roundNet.fed ω) m = .ok n ∧ Round n k := by
    intro m
    induction m with
    | zero => exact ⟨roundStart, 0, by rw [Net.simulate, if_pos round_init]; rfl, round_start⟩
    | succ m ih =>
      obtain ⟨n, k, h1, h2⟩ := ih
      obtain ⟨hiA, hin, -⟩ := sim_inv round_ok.okA round_reach round_init h1
      have hi := simple_inv round_ok round_reach round_init h1
      obtain ⟨n', g1, g2⟩ := h2.step hi hiA hin
      rcases g2 with ⟨e, -, g2, -⟩ | ⟨g2, -⟩
      · exact ⟨n', e, hs1 h1 g1, g2⟩
      · exact ⟨n', k, hs1 h1 g1, ⟨h2.lt, by rw [g2]; exact h2.quiet, by rw [g2]; exact h2.here, by rw [g2]; exact h2.alone,
          by rw [g2]; exact h2.made⟩⟩
  choose run place hrun hround using hex
  refine ⟨run, hrun, ?_, fun m => ⟨place m, hround m⟩⟩
  have hsame : ∀ {n n' : Net ℕ∞ ℝ}, n'.qs = n.qs → outOf roundNet 0 n' = outOf roundNet 0 n := fun h => by
    unfold outOf; rw [h]
  have hmono : Monotone fun m => outOf roundNet 0 (run m) := monotone_nat_of_le_succ fun m => by
    obtain ⟨hiA, hin, -⟩ := sim_inv round_ok.okA round_reach round_init (hrun m)
    have hi := simple_inv round_ok round_reach round_init (hrun m)
    obtain ⟨n', g1, g2⟩ := (hround m).step hi hiA hin
    have := hs1 (hrun m) g1
    rw [hrun, Except.ok.injEq] at this
    subst this
    rcases g2 with ⟨e, -, -, g2⟩ | ⟨g2, -⟩
    · rw [g2]; exact Nat.le_add_right _ _
    · rw [hsame g2]
  have key : ∀ (z : Nat) {m : Nat} {n : Net ℕ∞ ℝ} {k : Nat}, n.heap.size = z → roundStart.simulate (roundNet.fed ω) m = .ok n →
      Round n k → ∃ m' n' k', roundStart.simulate (roundNet.fed ω) m' = .ok n' ∧ Round n' k' ∧
        2 * outOf roundNet 0 n + (if k = 2 then 1 else 0) + 1 ≤ 2 * outOf roundNet 0 n' + if k' = 2 then 1 else 0 := by
    intro z
    induction z using Nat.strong_induction_on with
    | _ z ih =>
      intro m n k hz h1 h2
      obtain ⟨hiA, hin, -⟩ := sim_inv round_ok.okA round_reach round_init h1
      have hi := simple_inv round_ok round_reach round_init h1
      obtain ⟨n', g1, g2⟩ := h2.step hi hiA hin
      have g3 := hs1 h1 g1
      rcases g2 with ⟨e, q1, q2, q3⟩ | ⟨q1, q2⟩
      · refine ⟨m + 1, n', e, g3, q2, ?_⟩
        rcases round_cases h2.lt with rfl | rfl | rfl
        · rw [if_pos (show (roundNet.qc 0).edge.tgt = 0 from rfl)] at q3; rw [q3, if_neg (by decide)]; split <;> omega
        · have he : e = 2 := by simpa [roundNet, demoQ] using q1
          rw [he, if_pos rfl, if_neg (by decide)]
          rw [q3]; omega
        · rw [if_pos (show (roundNet.qc 2).edge.tgt = 0 from rfl)] at q3; rw [q3, if_pos rfl]; split <;> omega
      · obtain ⟨m2, n2, k2, t1, t2, t3⟩ := ih _ (hz ▸ q2) rfl g3
          ⟨h2.lt, by rw [q1]; exact h2.quiet, by rw [q1]; exact h2.here, by rw [q1]; exact h2.alone,
            by rw [q1]; exact h2.made⟩
        rw [hsame q1] at t3
        exact ⟨m2, n2, k2, t1, t2, t3⟩
  have hall : ∀ B : ℕ, ∃ m n k, roundStart.simulate (roundNet.fed ω) m = .ok n ∧ Round n k ∧
      B ≤ 2 * outOf roundNet 0 n + if k = 2 then 1 else 0 := by
    intro B
    induction B with
    | zero => exact ⟨0, run 0, place 0, hrun 0, hround 0, Nat.zero_le _⟩
    | succ B ih =>
      obtain ⟨m, n, k, h1, h2, h3⟩ := ih
      obtain ⟨m', n', k', g1, g2, g3⟩ := key _ rfl h1 h2
      exact ⟨m', n', k', g1, g2, by omega⟩
  refine hmono.tendsto_atTop_atTop fun B => ?_
  obtain ⟨m, n, k, h1, -, h3⟩ := hall (2 * B + 1)
  rw [hrun, Except.ok.injEq] at h1
  refine ⟨m, ?_⟩
  simp only [h1]
  split at h3 <;> omega

/-- With probability one three quarters of the departures from the queues 0 and 2 go to queue 1 in the long run. -/
example : ∀ᵐ ω ∂unifLaw, ∃ run : ℕ → Net ℕ∞ ℝ, (∀ m, roundStart.simulate (roundNet.fed ω) m = .ok (run m)) ∧
    Tendsto (fun m => (((run m).qs 1).numArrivals + ((run m).qs 1).lost.length + (agents ((run m).qs 1).arrivals).length -
        ((run m).qs 1).oArrivals : ℝ) / (((run m).qs 0).numDepartures + ((run m).qs 2).numDepartures)) atTop (𝓝 (3 / 4)) := by
  have h := C124_long_run round_ok.okA round_graph round_reach round_init round_law (fun k _ => .inl (round_server k))
    (fun k hk => by rcases round_cases hk with rfl | rfl | rfl <;> decide) round_plain (e := 1) (by simp [roundNet])
    (round_server 1)
  rw [round_chance] at h
  filter_upwards [h] with ω hω
  obtain ⟨run, h1, h2, -⟩ := round_goes_on ω
  refine ⟨run, h1, (hω run h1 h2).congr fun m => ?_⟩
  have e0 : outOf roundNet 0 roundStart = 0 := by decide +kernel
  have e1 : handed (roundStart.qs 1) = 0 := by decide +kernel
  have e2 : outOf roundNet 0 (run m) = ((run m).qs 0).numDepartures + ((run m).qs 2).numDepartures := by
    unfold outOf
    rw [show (Finset.range roundNet.nE).filter (fun j => (roundNet.qc j).edge.tgt = 0) = {0, 2} by decide +kernel]
    simp
  rw [e0, e1, e2]
  simp [handed]

theorem round_out (n : Net ℕ∞ ℝ) : outOf roundNet 0 n = (n.qs 0).numDepartures + (n.qs 2).numDepartures := by
  unfold outOf
  rw [show (Finset.range roundNet.nE).filter (fun j => (roundNet.qc j).edge.tgt = 0) = {0, 2} by decide +kernel]
  simp

/-- With the departures from the queues 0 and 2 as a clock, the queues have departure rates 1/4, 3/4 and 3/4: the traffic equations
are about something. -/
example : ∀ᵐ ω ∂unifLaw, ∃ run : ℕ → Net ℕ∞ ℝ, (∀ m, roundStart.simulate (roundNet.fed ω) m = .ok (run m)) ∧
    ∃ x : ℕ → ℝ, Tendsto x atTop atTop ∧
      Tendsto (fun m => (((run m).qs 0).numDepartures : ℝ) / x m) atTop (𝓝 (1 / 4)) ∧
      Tendsto (fun m => (((run m).qs 2).numDepartures : ℝ) / x m) atTop (𝓝 (3 / 4)) ∧
      Tendsto (fun m => (((run m).qs 1).numDepartures : ℝ) / x m) atTop (𝓝 (3 / 4)) := by
  have hloss : ∀ k ∈ roundNet.outEdges 0, (roundNet.qc k).kind = .server ∨ (roundNet.qc k).kind = .null :=
    fun k _ => .inl (round_server k)
  have hfac : ∀ k < roundNet.nE, (roundNet.qc k).factory ≠ .greedy := fun k hk => by
    rcases round_cases hk with rfl | rfl | rfl <;> decide
  have h := C124_long_run round_ok.okA round_graph round_reach round_init round_law hloss hfac round_plain (e := 0) (by simp [roundNet])
    (round_server 0)
  have h' := C124_traffic_equations round_ok.okA round_graph round_reach round_init round_law hloss hfac round_plain (e := 1)
    (by simp [roundNet]) (round_server 1)
  have hc0 : (chance (roundNet.outEdges 0) (roundStart.probs 0) 0).toReal = 1 / 4 := by
    rw [round_prob, show roundNet.outEdges 0 = [0, 1] from rfl]
    norm_num [chance, roundProbs]
  rw [round_chance] at h'
  rw [hc0] at h
  filter_upwards [h, h'] with ω hω hω'
  obtain ⟨run, h1, h2, h3⟩ := round_goes_on ω
  have hx : Tendsto (fun m => (outOf roundNet 0 (run m) : ℝ)) atTop atTop := tendsto_natCast_atTop_atTop.comp h2
  have hinv : ∀ m, NetInv (roundNet.fed ω) (fun _ => true) (run m) := fun m => simple_inv round_ok round_reach round_init (h1 m)
  have htot : ∀ m, ∀ j < 3, 0 ≤ ((run m).qs j).numTotal ∧ ((run m).qs j).numTotal ≤ 1 := by
    intro m j hj
    obtain ⟨k, hk⟩ := h3 m
    rcases (hinv m).good j hj with ⟨g1, g2⟩ | ⟨g1, -⟩
    · have q := g2.inv g1
      have q1 := q.numTotal
      have q2 := q.numSystem
      rw [(hk.quiet j hj).2.2.1] at q2
      rw [(hk.quiet j hj).2.2.2] at q1
      by_cases hjk : j = k
      · subst hjk
        obtain ⟨a, ha, -⟩ := hk.here
        rw [ha] at q2
        simp at q1 q2; omega
      · rw [hk.alone j hj hjk] at q2
        simp at q1 q2; omega
    · rw [show (roundNet.fed ω).qc j = roundNet.qc j from rfl, round_server j] at g1
      exact absurd g1 (by decide)
  have hconst : ∀ c : ℝ, Tendsto (fun m => c / (outOf roundNet 0 (run m) : ℝ)) atTop (𝓝 0) := fun c => hx.const_div_atTop c
  have htot' : ∀ j < 3, Tendsto (fun m => (((run m).qs j).numTotal : ℝ) / (outOf roundNet 0 (run m) : ℝ)) atTop (𝓝 0) := by
    intro j hj
    refine tendsto_of_tendsto_of_tendsto_of_le_of_le tendsto_const_nhds (hconst 1) (fun m => ?_) (fun m => ?_)
    · have : (0 : ℝ) ≤ ((run m).qs j).numTotal := by exact_mod_cast (htot m j hj).1
      show (0 : ℝ) ≤ _
      positivity
    · have : (((run m).qs j).numTotal : ℝ) ≤ 1 := by exact_mod_cast (htot m j hj).2
      show _ / _ ≤ _ / _
      gcongr
  have e0 : outOf roundNet 0 roundStart = 0 := by decide +kernel
  have hr0 : Tendsto (fun m => (((run m).qs 0).numDepartures : ℝ) / (outOf roundNet 0 (run m) : ℝ)) atTop (𝓝 (1 / 4)) := by
    have := ((hω run h1 h2).add (hconst (handed (roundStart.qs 0) + 1 - (roundStart.qs 0).lost.length))).sub (htot' 0 (by decide))
    rw [add_zero, sub_zero] at this
    refine this.congr fun m => ?_
    obtain ⟨k, hk⟩ := h3 m
    have hb := balance (sim_inv round_ok.okA round_reach round_init (h1 m)).1 (k := 0) (show 0 < 3 by decide)
      (.inl (round_server 0))
    rw [hk.made 0 (by decide), run_lost round_ok.okA round_graph round_reach round_init (round_server 0) m (h1 m)] at hb
    have hb' : (((run m).qs 0).numDepartures : ℝ) = handed ((run m).qs 0) + 1 - (roundStart.qs 0).lost.length -
        ((run m).qs 0).numTotal := by exact_mod_cast hb
    rw [hb', e0]
    push_cast
    ring
  have hr2 : Tendsto (fun m => (((run m).qs 2).numDepartures : ℝ) / (outOf roundNet 0 (run m) : ℝ)) atTop (𝓝 (3 / 4)) := by
    have := (tendsto_const_nhds (x := (1 : ℝ))).sub hr0
    rw [show (1 : ℝ) - 1 / 4 = 3 / 4 by norm_num] at this
    refine this.congr' ?_
    filter_upwards [h2.eventually_gt_atTop 0] with m hm
    have hne : (outOf roundNet 0 (run m) : ℝ) ≠ 0 := by exact_mod_cast hm.ne'
    have : (outOf roundNet 0 (run m) : ℝ) = ((run m).qs 0).numDepartures + ((run m).qs 2).numDepartures := by
      exact_mod_cast round_out (run m)
    rw [eq_div_iff hne, sub_mul, div_mul_cancel₀ _ hne, this]
    ring
  refine ⟨run, h1, _, hx, hr0, hr2, ?_⟩
  have := hω' run h1 _ (fun j => if j = 0 then 1 / 4 else 3 / 4) 0 hx (fun j hj hv => ?_) ?_ (htot' 1 (by decide))
  · rw [show (Finset.range roundNet.nE).filter (fun j => (roundNet.qc j).edge.tgt = 0) = {0, 2} by decide +kernel] at this
    norm_num at this
    exact this
  · rcases round_cases hj with rfl | rfl | rfl
    · simpa using hr0
    · exact absurd hv (by decide)
    · simpa using hr2
  · refine (hconst 0).congr fun m => ?_
    obtain ⟨k, hk⟩ := h3 m
    rw [hk.made 1 (by decide)]
    simp

end Verif.NetSpec
