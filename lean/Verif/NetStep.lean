import Verif.NetInv

/-! # One simulated event of a network (proof support) -/

set_option linter.unusedSectionVars false
set_option linter.unusedSimpArgs false
set_option linter.unusedVariables false

namespace Verif

variable {T R : Type*} [LinearOrder T] [OrderTop T] [Zero T] [LinearOrder R] [Add R]

/-- There is always a server, if there is one at first. -/
theorem Reach.servers {c : QCfg T} {b : Bool} {s : QS T} (hk : Simple c) (h : Reach c b NetOk s)
    (h0 : ∀ m, c.servers = .fin m → 1 ≤ m) : ∀ m, s.numServers = .fin m → 1 ≤ m := by
  refine h.induct (P := fun s => ∀ m, s.numServers = .fin m → 1 ≤ m) hk h0 ?_
  intro s s' op hb hi hok ho
  cases ho with
  | ev s' r _ h1 =>
    cases h1 with
    | idle _ _ h2 => rw [h2]; exact hi
    | dep a _ h2 _ => rw [h2.numServers]; exact hi
    | arr a rest _ _ _ h2 _ => rw [h2.numServers]; exact hi
    | block a rest _ _ _ _ h2 _ => rw [h2.numServers]; exact hi
  | already => exact hi
  | act => exact hi
  | inact => exact hi
  | srv n s' r h1 =>
    cases h1 with
    | typ _ => exact hi
    | val _ _ _ => exact hi
    | ok new k deps h2 _ _ _ _ =>
      intro m hm
      rcases h2 with ⟨m', -, h3, h4⟩ | ⟨-, h4⟩
      · rw [h4] at hm; cases hm; exact h3
      · rw [h4] at hm; cases hm
  | delay t kb s' h1 =>
    cases h1 with
    | none => exact hi
    | some => exact hi
  | collect => exact hi
  | noteFull => exact hi
  | noteOpen => exact hi
  | clearData => exact hi
  | clear => rw [clear_simple c s hk]; exact hi
  | handover => exact hi

/-- With a server and a non-negative buffer, somebody is in service if somebody is in the system. -/
theorem busy {N : NetCfg T R} (hF : N.FinSvc) {k : Nat} (hkE : k < N.nE) {b : Bool} {s : QS T}
    (hk : Simple (N.qc k)) (h : Reach (N.qc k) b NetOk s) (hs : 1 ≤ s.numSystem) :
    agents s.departures ≠ [] := by
  intro he
  have hi := h.inv hk
  have h1 := hi.numSystem
  rw [he] at h1
  simp only [List.length_nil] at h1
  have h2 : s.queue ≠ [] := by
    intro hq; rw [hq] at h1; simp at h1; omega
  have h3 := hi.work h2
  rw [he] at h3
  cases hsv : s.numServers with
  | inf => rw [hsv] at h3; simp [Cap.lt] at h3
  | fin m =>
    rw [hsv] at h3
    simp [Cap.lt] at h3
    have := h.servers hk (hF.servers k hkE hk) m hsv
    omega

theorem full_pos {N : NetCfg T R} (hF : N.FinSvc) {k : Nat} (hkE : k < N.nE) {b : Bool} {s : QS T}
    (hk : Simple (N.qc k)) (h : Reach (N.qc k) b NetOk s)
    (hs : (s.numServers.add (N.qc k).buffer).lt s.numSystem = false) : 1 ≤ s.numSystem := by
  cases hsv : s.numServers with
  | inf => rw [hsv] at hs; simp [Cap.lt, Cap.add] at hs
  | fin m =>
    rw [hsv] at hs
    cases hbf : (N.qc k).buffer with
    | inf => rw [hbf] at hs; simp [Cap.lt, Cap.add] at hs
    | fin m' =>
      rw [hbf] at hs
      simp [Cap.lt, Cap.add] at hs
      have := h.servers hk (hF.servers k hkE hk) m hsv
      have := hF.buffer k hkE hk m' hbf
      omega

theorem HeapOK.headTime_lt {l : List (Slot T)} (h : HeapOK l) (hne : agents l ≠ [])
    (hf : ∀ a ∈ agents l, a.time < ⊤) : headTime l < ⊤ := by
  obtain ⟨a, ha⟩ := List.exists_mem_of_ne_nil _ hne
  exact (h.le a ha).trans_lt (hf a ha)

theorem DepSpec.fin {c : QCfg T} {s s' : QS T} {a : Agent T} (h : DepSpec c s s' a)
    (hf : ∀ a ∈ agents s.departures, a.time < ⊤) (hs : ∀ i, c.serviceF i a.time < ⊤) :
    ∀ a ∈ agents s'.departures, a.time < ⊤ := by
  obtain ⟨deps, g1, -, g3⟩ := h.served
  have hd : ∀ b ∈ agents deps, b.time < ⊤ := fun b hb => hf b (g1.mem_iff.mpr (by simp [hb]))
  rcases g3 with ⟨b', rest, -, -, -, -, e4, -, -⟩ | ⟨-, -, -, e3, -, -⟩
  · intro x hx
    rcases List.mem_cons.mp (e4.mem_iff.mp hx) with rfl | hx
    · exact hs _
    · exact hd x hx
  · rw [e3]; exact hd

theorem ArrEff.fin {c : QCfg T} {s s' : QS T} (h : ArrEff c s s') (ht : s.time = headTime s.arrivals)
    (hf : ∀ a ∈ agents s.departures, a.time < ⊤) (hs : ∀ i, c.serviceF i s.time < ⊤) :
    ∀ a ∈ agents s'.departures, a.time < ⊤ := by
  cases h.out with
  | idle _ _ h => rw [h]; exact hf
  | arr a rest _ _ _ e _ =>
    rcases e.served with ⟨-, -, -, e3, -, -⟩ | ⟨-, -, -, e3, -, -⟩
    · intro x hx
      rcases List.mem_cons.mp (e3.mem_iff.mp hx) with rfl | hx
      · simp only; rw [e.time_eq, ← ht]; exact hs _
      · exact hf x hx
    · rw [e3]; exact hf
  | block a rest _ _ _ _ e _ => rw [e.departures]; exact hf

/-- After an arrival event somebody is left at the queue and has a finite next event. -/
theorem ArrEff.time_lt {N : NetCfg T R} (hF : N.FinSvc) {k : Nat} (hkE : k < N.nE) {b : Bool} {s s' : QS T}
    (hk : Simple (N.qc k)) (h : ArrEff (N.qc k) s s') (hr : Reach (N.qc k) b NetOk s)
    (hr' : Reach (N.qc k) b NetOk s') (hlt : headTime s.arrivals < ⊤)
    (hf : ∀ a ∈ agents s'.departures, a.time < ⊤) : s'.time < ⊤ := by
  have hb' := hr'.base hk
  have h0 : 0 ≤ s.numSystem := by rw [(hr.inv hk).numSystem]; omega
  have h1 : 1 ≤ s'.numSystem := by
    cases h.out with
    | idle e => rw [e] at hlt; exact absurd hlt (lt_irrefl _)
    | arr a rest _ _ _ e _ => rw [e.numSystem]; omega
    | block a rest _ _ _ e' e _ => rw [e.numSystem]; exact full_pos hF hkE hk hr e'
  have h2 := busy hF hkE hk hr' h1
  rw [hb'.time, nextTime]
  exact (min_le_right _ _).trans_lt (hb'.okD.headTime_lt h2 hf)

/-- The decision to stop outside arrivals taken in queue_network.py lines 1342-1344. -/
def stopAt (N : NetCfg T R) (n : Net T R) (k e2 : Nat) (x1 : Int) (m : QS T) : Bool :=
  m.active && Net.maxed N { n with
    numAgents := Function.update (Function.update n.numAgents k x1) e2 m.numTotal }

/-- How queue `e2`, in state `q2`, receives agent `a` and performs an event. -/
inductive RecvOut (c : QCfg T) (off : QS T → Bool) (q2 s2 : QS T) (a : Agent T) : Prop
  | queue : Simple c → RecvEff c q2 s2 a off → RecvOut c off q2 s2 a
  | null (m : QS T) : c.kind = .null → addArrivalAgent c q2 a = .ok m → NullQ s2 →
      m.numTotal = q2.numTotal → s2 = (if off m then setInactive m else m) → RecvOut c off q2 s2 a

/-- What stays the same in every event. -/
structure StepSame (n n' : Net T R) : Prop where
  init : n'.initialized = n.initialized
  bas : n'.bas = n.bas
  probs : n'.probs = n.probs
  events : n'.numEvents = n.numEvents + 1

/-- Queue `k` is the first in the scheduler. -/
def Next (n : Net T R) (k : Nat) : Prop := n.heap.size ≠ 0 ∧ ∃ h x, n.heap.pop = some (h, some (x, k))

/-- What one call of `_simulate_next_event` does. -/
inductive StepOut (N : NetCfg T R) (n n' : Net T R) : Prop
  | empty : n.heap.size = 0 → n' = { n with t := ⊤ } → StepOut N n n'
  | idle (k : Nat) (x : T) (h : PQ T) : k < N.nE → n.heap.size ≠ 0 → (n.qs k).time = ⊤ →
      (x = n.t ∨ x = ⊤) → (∀ j < N.nE, x ≤ (n.qs j).time) →
      n.heap.pop = some (h, some (x, k)) →
      n' = { n with heap := h, t := x, numEvents := n.numEvents + 1 } → StepOut N n n'
  | arrive (k : Nat) (s' : QS T) : k < N.nE → Next n k → Simple (N.qc k) → (n.qs k).time < ⊤ →
      (∀ j < N.nE, (n.qs k).time ≤ (n.qs j).time) → nextEventDescription (N.qc k) (n.qs k) = 1 →
      ArrEff (N.qc k) (if (n.qs k).active && n.maxed N then setInactive (n.qs k) else n.qs k) s' →
      n'.qs = Function.update n.qs k s' →
      n'.numAgents = Function.update n.numAgents k s'.numTotal →
      n'.t = (n.qs k).time → n'.unifCalls = n.unifCalls → n'.jitCalls = n.jitCalls →
      StepSame n n' → StepOut N n n'
  | block (k e2 : Nat) (a : Agent T) (s1 : QS T) (d : Nat) : k < N.nE → Next n k → e2 < N.nE →
      k ≠ e2 → Simple (N.qc k) →
      (n.qs k).time < ⊤ → (∀ j < N.nE, (n.qs k).time ≤ (n.qs j).time) →
      nextEventDescription (N.qc k) (n.qs k) = 2 → n.destination N k a = .ok (e2, d) →
      (N.qc e2).kind = .loss → atCapacity (N.qc e2) (n.qs e2) = true →
      DelayEff (N.qc k) (n.qs k) s1
        (if n.bas then some (N.jit n.jitCalls (headTime (n.qs e2).departures)) else none) a →
      n'.qs = Function.update (Function.update n.qs e2
        { n.qs e2 with numBlocked := (n.qs e2).numBlocked + 1 }) k s1 →
      n'.numAgents = n.numAgents → n'.t = (n.qs k).time → n'.unifCalls = n.unifCalls + d →
      n'.jitCalls = (if n.bas then n.jitCalls + 1 else n.jitCalls) → StepSame n n' → StepOut N n n'
  | move (k e2 : Nat) (a : Agent T) (s1 s2 : QS T) (d : Nat) : k < N.nE → Next n k → e2 < N.nE →
      Simple (N.qc k) →
      (n.qs k).time < ⊤ → (∀ j < N.nE, (n.qs k).time ≤ (n.qs j).time) →
      nextEventDescription (N.qc k) (n.qs k) = 2 → n.destination N k a = .ok (e2, d) →
      (atCapacity (N.qc e2) (n.qs e2) = true → e2 = k) →
      DepEff (N.qc k) (n.qs k) s1 a →
      RecvOut (N.qc e2) (stopAt N n k e2 s1.numTotal) (Function.update n.qs k s1 e2) s2 a →
      n'.qs = Function.update (Function.update n.qs k s1) e2 s2 →
      n'.numAgents = Function.update (Function.update n.numAgents k s1.numTotal) e2 s2.numTotal →
      n'.t = (n.qs k).time → n'.unifCalls = n.unifCalls + d → n'.jitCalls = n.jitCalls →
      StepSame n n' → StepOut N n n'

theorem desc_cases {c : QCfg T} {b : Bool} {s : QS T} (h : QGood c b s) :
    (nextEventDescription c s = 0 ∧ s.time = ⊤) ∨
    (nextEventDescription c s = 1 ∧ Simple c ∧ Reach c b NetOk s ∧ s.time < ⊤ ∧
      s.time = headTime s.arrivals ∧ headTime s.arrivals ≤ headTime s.departures) ∨
    (nextEventDescription c s = 2 ∧ Simple c ∧ Reach c b NetOk s ∧ s.time < ⊤ ∧
      s.time = headTime s.departures ∧ headTime s.departures < headTime s.arrivals) := by
  have hb := h.base
  rcases h with ⟨hk, h⟩ | ⟨hk, h⟩
  · unfold nextEventDescription
    rw [if_neg hk.ne_null]
    by_cases h1 : headTime s.departures < headTime s.arrivals
    · right; right
      have ht : s.time = headTime s.departures := by rw [hb.time, nextTime, min_eq_right h1.le]
      exact ⟨by rw [if_pos h1], hk, h, by rw [ht]; exact h1.trans_le le_top, ht, h1⟩
    · rw [if_neg h1]
      have h1' := not_lt.mp h1
      have ht : s.time = headTime s.arrivals := by rw [hb.time, nextTime, min_eq_left h1']
      by_cases h2 : headTime s.arrivals < ⊤
      · right; left
        exact ⟨by rw [if_pos h2], hk, h, by rw [ht]; exact h2, ht, h1'⟩
      · left
        exact ⟨by rw [if_neg h2], by rw [ht]; exact not_lt_top_iff.mp h2⟩
  · left
    exact ⟨by simp [nextEventDescription, hk], h.1⟩

theorem maybeInactive {c : QCfg T} {b : Bool} {s : QS T} (f : Bool) (h : Reach c b NetOk s) :
    Reach c b NetOk (if f then setInactive s else s) := by
  cases f with
  | true => exact h.step .setInactive trivial rfl
  | false => exact h

theorem maybeInactive_same (f : Bool) (s : QS T) :
    (if f then setInactive s else s).arrivals = s.arrivals ∧
    (if f then setInactive s else s).departures = s.departures ∧
    (if f then setInactive s else s).time = s.time ∧
    (if f then setInactive s else s).numTotal = s.numTotal ∧
    (if f then setInactive s else s).oArrivals = s.oArrivals ∧
    (if f then setInactive s else s).lost = s.lost := by
  cases f <;> simp [setInactive]

/-- A destination exists. -/
theorem destination_ok {N : NetCfg T R} (hN : N.Ok) {n : Net T R}
    (hp : ∀ v, (n.probs v).length = (N.outEdges v).length) {k : Nat} (hk : k < N.nE)
    (hs : Simple (N.qc k)) (a : Agent T) :
    ∃ e d, n.destination N k a = .ok (e, d) ∧ e ∈ N.outEdges (N.qc k).edge.tgt := by
  have hout := hN.out k hk hs
  unfold Net.destination
  have plain : ∃ e d, (match agentDest (N.outEdges (N.qc k).edge.tgt) (n.probs (N.qc k).edge.tgt)
        (N.unif n.unifCalls) with
      | .error e => .error e
      | .ok e => .ok (e, if (N.outEdges (N.qc k).edge.tgt).length ≤ 1 then 0 else 1) :
        Except DestErr (Nat × Nat)) = .ok (e, d) ∧ e ∈ N.outEdges (N.qc k).edge.tgt := by
    obtain ⟨e, h1, h2⟩ := RoutingSpec.C32_destination_is_out_edge _ _ (N.unif n.unifCalls) hout
      (hp (N.qc k).edge.tgt)
    exact ⟨e, _, by rw [h2], h1⟩
  cases hkind : a.kind with
  | greedy =>
    obtain ⟨e, h1, h2⟩ := RoutingSpec.C32_greedy_destination_is_out_edge _
      (fun d => numberQueued (N.qc d) (n.qs d)) hout
    exact ⟨e, 0, by simp only [h2], h1⟩
  | plain => exact plain
  | resource _ _ => exact plain

theorem update_ext {α : Type*} {f g : Nat → α} {k : Nat} {x : α} (h1 : g k = x)
    (h2 : ∀ j ≠ k, g j = f j) : g = Function.update f k x := by
  funext j
  by_cases hj : j = k
  · subst hj; simp [h1]
  · simp [hj, h2 j hj]

/-- A NullQueue takes an agent. -/
theorem null_recv {c : QCfg T} (hk : c.kind = .null) {s : QS T} (h : NullQ s) (a : Agent T)
    (off : QS T → Bool) :
    ∃ m, addArrivalAgent c s a = .ok m ∧ m.numTotal = s.numTotal ∧
      NullQ (if off m then setInactive m else m) ∧
      nextEvent c (if off m then setInactive m else m) = .ok (if off m then setInactive m else m, none) := by
  unfold addArrivalAgent
  rw [if_pos hk]
  refine ⟨_, rfl, by split <;> rfl, ?_, by simp [nextEvent, hk]⟩
  obtain ⟨h1, h2, h3, h4, h5, h6⟩ := h
  split <;> split <;> exact ⟨h1, h2, h3, h4, h5, h6⟩

end Verif
