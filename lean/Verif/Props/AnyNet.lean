import Verif.AnyFacts
import Verif.Props.Net2
import Verif.Props.Resource

/-!
# Properties C98-C101: networks with queues of every class

`N.OkA` is `N.Ok` without its restriction to QueueServers, LossQueues and NullQueues: the network may also have
ResourceQueues, and any class of agents.
-/

set_option linter.unusedSectionVars false
set_option linter.unusedVariables false

namespace Verif.NetSpec

open ResourceSpec

variable {T R : Type*} [LinearOrder T] [OrderTop T] [Zero T] [LinearOrder R] [Add R]

/-! ## C98: order of events -/

/-- What becomes of agent `a` that arrives at queue `k`. It is admitted; or, at a LossQueue or ResourceQueue, turned
away; or, at a ResourceQueue, it leaves the resource it carries and is gone. -/
def ArrFate (N : NetCfg T R) (n n' : Net T R) (k : Nat) (a : Agent T) : Prop :=
  ((n'.qs k).numArrivals = (n.qs k).numArrivals + 1 ∧ (n'.qs k).lost = (n.qs k).lost ∧
      (n'.qs k).numSystem = (n.qs k).numSystem + 1) ∨
  (((N.qc k).kind = .loss ∨ (N.qc k).kind = .resource) ∧ (n'.qs k).numSystem = (n.qs k).numSystem ∧
      (n'.qs k).numBlocked = (n.qs k).numBlocked + 1 ∧ (n'.qs k).numServers = (n.qs k).numServers ∧
      (n'.qs k).lost.map (·.id) = (n.qs k).lost.map (·.id) ++ [a.id]) ∨
  ((N.qc k).kind = .resource ∧ (∃ had, a.kind = .resource true had) ∧
      (n'.qs k).numSystem = (n.qs k).numSystem ∧ (n'.qs k).lost = (n.qs k).lost ∧
      (n'.qs k).numServers = (n.qs k).numServers.addInt 1)

/-- Agent `a` arrives at queue `k`: it is taken from the scheduled arrivals, at most one new arrival is scheduled
there, and no other queue changes. -/
def ArrivesA (N : NetCfg T R) (n n' : Net T R) (k : Nat) (a : Agent T) : Prop :=
  a ∈ agents (n.qs k).arrivals ∧ (∀ j, j ≠ k → n'.qs j = n.qs j) ∧
  (∃ rest ext, (agents (n.qs k).arrivals).Perm (a :: rest) ∧ (agents (n'.qs k).arrivals).Perm (ext ++ rest) ∧
    ext.length ≤ 1) ∧
  ArrFate N n n' k a

/-- An event happened in which agent `a` arrives, moves or is blocked. -/
def EventA (N : NetCfg T R) (n n' : Net T R) (k : Nat) (a : Agent T) : Prop :=
  ArrivesA N n n' k a ∨
    ∃ e ∈ N.outEdges (N.qc k).edge.tgt, Moves n n' k e a ∨
      (((N.qc e).kind = .loss ∨ (N.qc e).kind = .resource) ∧ Blocked n n' k e a)

theorem pending_geA {N : NetCfg T R} {b : Nat → Bool} {n : Net T R} (hi : NetInvA N b n) {j : Nat}
    (hj : j < N.nE) : ∀ x ∈ pending (n.qs j), (n.qs j).time ≤ x.time := by
  intro x hx
  refine (hi.good j hj).base.le_pend (mem_pendT.mpr ?_)
  rcases List.mem_append.mp hx with h | h
  · exact .inl ⟨x, h, rfl⟩
  · exact .inr ⟨x, h, rfl⟩

theorem mem_outA {N : NetCfg T R} (hN : N.OkA) {b : Nat → Bool} {n : Net T R} (hi : NetInvA N b n) {k : Nat}
    (hk : k < N.nE) (hs : (N.qc k).kind ≠ .null) {a : Agent T} {e d : Nat} (h : n.destination N k a = .ok (e, d)) :
    e ∈ N.outEdges (N.qc k).edge.tgt := by
  obtain ⟨e', d', h1, h2⟩ := destination_okA hN hi.probs hk hs a
  rw [h1] at h
  simp only [Except.ok.injEq, Prod.mk.injEq] at h
  exact h.1 ▸ h2

theorem event_of_arriveA {N : NetCfg T R} {n n' : Net T R} {k : Nat} {s0 s' : QS T}
    (hk : (n.qs k).arrivals = s0.arrivals ∧ (n.qs k).lost = s0.lost ∧ (n.qs k).numSystem = s0.numSystem ∧
      (n.qs k).numArrivals = s0.numArrivals ∧ (n.qs k).numBlocked = s0.numBlocked ∧
      (n.qs k).numServers = s0.numServers)
    (he : EvA (N.qc k) s0 s' none) (hq : n'.qs = Function.update n.qs k s') (hlt : headTime s0.arrivals < ⊤) :
    ∃ a, a.time = headTime s0.arrivals ∧ ArrivesA N n n' k a := by
  have hother : ∀ j, j ≠ k → n'.qs j = n.qs j := by intro j hj; rw [hq, Function.update_of_ne hj]
  have hself : n'.qs k = s' := by rw [hq, Function.update_self]
  obtain ⟨k1, k2, k3, k4, k5, k6⟩ := hk
  have mk : ∀ (a : Agent T) (rest : List (Slot T)), a.time = headTime s0.arrivals →
      (agents s0.arrivals).Perm (a :: agents rest) → ExtSpec (N.qc k) s0 s' a.time rest → ArrFate N n n' k a →
      ∃ a, a.time = headTime s0.arrivals ∧ ArrivesA N n n' k a := by
    intro a rest h1 h2 h3 h4
    obtain ⟨ext, g1, -, -, -, g2, -⟩ := h3.listA
    exact ⟨a, h1, by rw [k1]; exact h2.mem_iff.mpr (by simp), hother,
      ⟨agents rest, ext, by rw [k1]; exact h2, by rw [hself]; exact g1, g2⟩, h4⟩
  cases he with
  | simple hk he =>
    cases he with
    | idle h1 _ _ => rw [h1] at hlt; exact absurd hlt (lt_irrefl _)
    | arr a rest _ _ _ e _ =>
      exact mk a rest e.time_eq e.perm e.ext (.inl ⟨by rw [hself, e.numArrivals, k4], by rw [hself, e.lost, k2],
        by rw [hself, e.numSystem, k3]⟩)
    | block a rest _ _ hl _ e _ =>
      exact mk a rest e.time_eq e.perm e.ext (.inr (.inl ⟨.inl hl, by rw [hself, e.numSystem, k3],
        by rw [hself, e.numBlocked, k5], by rw [hself, e.numServers, k6], by rw [hself, e.lost, k2]; simp⟩))
  | resource hk he =>
    cases he with
    | idle h1 _ _ => rw [h1] at hlt; exact absurd hlt (lt_irrefl _)
    | arr a rest _ _ _ _ e =>
      exact mk a rest e.time_eq e.perm e.ext (.inl ⟨by rw [hself, e.numArrivals, k4], by rw [hself, e.lost, k2],
        by rw [hself, e.numSystem, k3]⟩)
    | block a rest _ _ _ _ _ e =>
      exact mk a rest e.time_eq e.perm e.ext (.inr (.inl ⟨.inr hk, by rw [hself, e.numSystem, k3],
        by rw [hself, e.numBlocked, k5], by rw [hself, e.numServers, k6], by rw [hself, e.lost, k2]; simp⟩))
    | deposit a had _ _ hka e e1 _ _ _ e2 =>
      refine ⟨a, e.time_eq, by rw [k1]; exact e.perm.mem_iff.mpr (by simp), hother,
        ⟨agents s'.arrivals, [], by rw [k1]; exact e.perm, by rw [hself]; simp, by simp⟩, .inr (.inr ⟨hk, ⟨had, hka⟩,
          by rw [hself, e.numSystem, k3], by rw [hself, e2, k2], by rw [hself, e1, k6]⟩)⟩
    | full a had _ _ hka _ e e1 _ _ e3 e2 =>
      refine ⟨a, e.time_eq, by rw [k1]; exact e.perm.mem_iff.mpr (by simp), hother,
        ⟨agents s'.arrivals, [], by rw [k1]; exact e.perm, by rw [hself]; simp, by simp⟩, .inr (.inl ⟨.inr hk,
          by rw [hself, e.numSystem, k3], by rw [hself, e3, k5], by rw [hself, e1, k6], by rw [hself, e2, k2]; simp⟩)⟩

/-- What a move does with the ids. -/
theorem event_of_moveA {N : NetCfg T R} {n n' : Net T R} {k e : Nat} {a a' : Agent T} {s1 s2 : QS T}
    {off : QS T → Bool} (hd : DepEffA (N.qc k) (n.qs k) s1 a a')
    (hr : RecvOutA (N.qc e) off (Function.update n.qs k s1 e) s2 a')
    (hnull : (N.qc e).kind = .null → NullQ (n.qs e) ∧ e ≠ k)
    (hq : n'.qs = Function.update (Function.update n.qs k s1) e s2) :
    a ∈ agents (n.qs k).departures ∧ (∀ j, j ≠ k → j ≠ e → n'.qs j = n.qs j) ∧
    (n'.qs k).numDepartures = (n.qs k).numDepartures + 1 ∧
    (e ≠ k → (presentIds (n.qs k)).Perm (a.id :: presentIds (n'.qs k))) ∧
    ∃ ext gone : List (Agent T), ext.length ≤ 1 ∧ gone.length ≤ 1 ∧
      (∀ x ∈ ext, x.id = ((N.qc e).edge.idx, (n.qs e).oArrivals)) ∧
      (n'.qs e).oArrivals = (n.qs e).oArrivals + ext.length ∧
      (((N.qc e).kind = .null ∧ gone = [a'] ∧ ext = []) ∨
        ((N.qc e).kind ≠ .null ∧ ∀ x ∈ gone, (x = a' ∨ x ∈ agents (n.qs e).arrivals) ∧
          LeftA (N.qc e) (Function.update n.qs k s1 e) s2 x)) ∧
      (presentIds (n'.qs e) ++ gone.map (·.id)).Perm
        (ext.map (·.id) ++ a.id :: presentIds (Function.update n.qs k s1 e)) := by
  obtain ⟨hid, hmem, hoAr, hlos, hnd⟩ := hd.ids
  have haid : a'.id = a.id := by rw [hd.same]
  rw [haid] at hid
  have he : n'.qs e = s2 := by rw [hq, Function.update_self]
  have hoth : ∀ j, j ≠ k → j ≠ e → n'.qs j = n.qs j := by
    intro j h1 h2; rw [hq, Function.update_of_ne h2, Function.update_of_ne h1]
  have hqk : e ≠ k → n'.qs k = s1 := by
    intro h; rw [hq, Function.update_of_ne (Ne.symm h), Function.update_self]
  have hfst : e ≠ k → (presentIds (n.qs k)).Perm (a.id :: presentIds (n'.qs k)) := by
    intro h; rw [hqk h]; exact hid
  have hdep : (n'.qs k).numDepartures = (n.qs k).numDepartures + 1 := by
    by_cases hke : e = k
    · subst hke
      rw [he, ← hnd]
      cases hr with
      | null m g1 => exact absurd rfl (hnull g1).2
      | queue g1 g2 =>
        obtain ⟨ext, gone, -, -, -, -, -, -, q, -⟩ := g2.ids
        rw [q, Function.update_self]
    · rw [hqk hke]; exact hnd
  have hoA : (Function.update n.qs k s1 e).oArrivals = (n.qs e).oArrivals := by
    by_cases h : e = k
    · subst h; rw [Function.update_self, hoAr]
    · rw [Function.update_of_ne h]
  have hAr : agents (Function.update n.qs k s1 e).arrivals = agents (n.qs e).arrivals := by
    by_cases h : e = k
    · subst h
      rw [Function.update_self]
      cases hd.out with
      | simple hk ho => cases ho with | dep _ _ e2 _ => rw [e2.arrivals]
      | resource hk ho => cases ho with | dep _ _ _ e2 => rw [e2.arrivals]
    · rw [Function.update_of_ne h]
  cases hr with
  | queue h1 h2 =>
    obtain ⟨ext, gone, g1, g2, g3, g4, g5, g6, -⟩ := h2.ids
    refine ⟨hmem, hoth, hdep, hfst, ext, gone, g4, g5, by rw [← hoA]; exact g3, by rw [he, g2, hoA],
      .inr ⟨h1, by rw [← hAr]; exact g6⟩, by rw [he, ← haid]; exact g1⟩
  | null m h1 h2 h3 h4 h5 =>
    obtain ⟨hn, hne⟩ := hnull h1
    have hq2 : Function.update n.qs k s1 e = n.qs e := Function.update_of_ne hne _ _
    refine ⟨hmem, hoth, hdep, hfst, [], [a'], by simp, by simp, by simp, ?_, .inl ⟨h1, rfl, rfl⟩, ?_⟩
    · rw [he, h5]
      rw [hq2] at h2
      simp only [addArrivalAgent, h1, if_true, Except.ok.injEq] at h2
      rw [← h2, (maybeInactive_same _ _).2.2.2.2.1]
      split <;> simp
    · rw [he, h3.ids, hq2, hn.ids]; simp [haid]

theorem null_of_goodA {N : NetCfg T R} {b : Nat → Bool} {n : Net T R} (hi : NetInvA N b n) {k e : Nat}
    (he : e < N.nE) (hs : (N.qc k).kind ≠ .null) : (N.qc e).kind = .null → NullQ (n.qs e) ∧ e ≠ k := by
  intro h
  refine ⟨?_, by rintro rfl; exact hs h⟩
  rcases hi.good e he with ⟨h1, -⟩ | ⟨-, h1⟩
  · exact absurd h h1
  · exact h1

/-- C98: the events of a network with queues of any class happen in the order of their times. If the state of any
queue changes in `simulate(n=1)`, an event took place at a queue `k` in which an agent `a` arrives, moves or is
blocked; the time of this event is the new `current_time`, it is the next event time of queue `k`, and no agent in the
network has an earlier event ahead and no queue an earlier next event time. -/
theorem C98_events_in_time_order {N : NetCfg T R} (hN : N.OkA) {b : Nat → Bool} {n n' : Net T R}
    (h : NetReach N b n) (hr : n.simulate N 1 = .ok n') :
    n'.qs = n.qs ∨ ∃ k < N.nE, ∃ a, EventA N n n' k a ∧ a.time = (n.qs k).time ∧ n'.t = a.time ∧
      ∀ j < N.nE, a.time ≤ (n.qs j).time ∧ ∀ x ∈ pending (n.qs j), a.time ≤ x.time := by
  have hi := h.invA hN
  obtain ⟨-, hs⟩ := step_of_simulateA hN h hr
  have hle : ∀ k, (∀ j < N.nE, (n.qs k).time ≤ (n.qs j).time) → ∀ a : Agent T, a.time = (n.qs k).time →
      ∀ j < N.nE, a.time ≤ (n.qs j).time ∧ ∀ x ∈ pending (n.qs j), a.time ≤ x.time := by
    intro k hk a ha j hj
    rw [ha]
    exact ⟨hk j hj, fun x hx => (hk j hj).trans (pending_geA hi hj x hx)⟩
  cases hs with
  | empty _ h1 => left; rw [h1]
  | idle _ _ _ _ _ _ _ _ _ h1 => left; rw [h1]
  | arrive k s' h1 h2 h3 h4 h5 h6 h7 h8 h9 h10 =>
    right
    obtain ⟨m1, m2, m3, m4, m5, m6⟩ := maybeInactive_same ((n.qs k).active && n.maxed N) (n.qs k)
    have hb := (hi.good k h1).base
    have hle1 : headTime (n.qs k).arrivals ≤ headTime (n.qs k).departures := by
      by_contra hc
      rw [nextEventDescription, if_neg h3, if_pos (not_le.mp hc)] at h6
      exact absurd h6 (by decide)
    have ht : (n.qs k).time = headTime (n.qs k).arrivals := by rw [hb.time, nextTime, min_eq_left hle1]
    obtain ⟨a, g1, g2⟩ := event_of_arriveA (N := N) (n := n) (n' := n') (k := k)
      ⟨m1.symm, m6.symm, by split <;> rfl, by split <;> rfl, by split <;> rfl, by split <;> rfl⟩ h7.out h8
      (by rw [m1, ← ht]; exact h4)
    have ga : a.time = (n.qs k).time := by rw [g1, m1, ht]
    exact ⟨k, h1, a, .inl g2, ga, by rw [h10, ga], hle k h5 a ga⟩
  | block k e a s1 d h1 h2 h3 h4 h5 h6 h7 h8 h9 h10 h11 h12 h13 h14 h15 =>
    right
    obtain ⟨rest, g1, g2⟩ := h12.deps
    have ga : a.time = (n.qs k).time := by
      have hlt : headTime (n.qs k).departures < headTime (n.qs k).arrivals := by
        by_contra hc
        rw [nextEventDescription, if_neg h5, if_neg hc] at h8
        split at h8 <;> simp at h8
      have := (hi.good k h1).base.time
      rw [this, nextTime, min_eq_right hlt.le]
      have hh := h12.head
      cases hd : (n.qs k).departures with
      | nil => rw [hd] at hh; simp at hh
      | cons x l => rw [hd] at hh; simp at hh; subst hh; rfl
    have e1 : n'.qs e = { n.qs e with numBlocked := (n.qs e).numBlocked + 1 } := by
      rw [h13, Function.update_of_ne (Ne.symm h4), Function.update_self]
    have e2 : n'.qs k = s1 := by rw [h13, Function.update_self]
    refine ⟨k, h1, a, .inr ⟨e, mem_outA hN hi h1 h5 h9, .inr ⟨h10, g1.mem_iff.mpr (by simp), Ne.symm h4, ?_, ?_, ?_,
      rest, _, g1, by rw [e2]; exact g2, by rw [e2]; exact h12.same.2.1, by rw [e2]; exact h12.same.1⟩⟩, ga,
      by rw [h15, ga], hle k h7 a ga⟩
    · intro j j1 j2; rw [h13, Function.update_of_ne j1, Function.update_of_ne j2]
    · rw [e1]
    · rw [e1]
  | move k e a a' s1 s2 d h1 h2 h3 h4 h5 h6 h7 h8 h9 h10 h11 h12 h13 h14 =>
    right
    have ga : a.time = (n.qs k).time := by rw [← h10.time, h10.same]
    obtain ⟨g1, g2, g3', g3, ext, gone, g4, g5, -, -, g6, g7⟩ :=
      event_of_moveA h10 h11 (null_of_goodA hi h3 h4) h12
    refine ⟨k, h1, a, .inr ⟨e, mem_outA hN hi h1 h4 h8, .inl ⟨g1, g2, g3', g3, ext.map (·.id), gone.map (·.id),
      by simpa using g4, by simpa using g5, ?_, ?_⟩⟩, ga, by rw [h14, ga], hle k h6 a ga⟩
    · intro he; rwa [Function.update_of_ne he] at g7
    · intro he
      subst he
      rw [Function.update_self] at g7
      refine g7.trans (List.Perm.append_left _ ?_)
      have hid := h10.ids.1
      have haid : a'.id = a.id := by rw [h10.same]
      rw [haid] at hid
      exact hid.symm

theorem stepA_mono {N : NetCfg T R} (hN : N.OkA) {b : Nat → Bool} {n n1 : Net T R} (hi : NetInvA N b n)
    (hs : StepOutA N n n1) : n.t ≤ n1.t ∧ n1.initialized = n.initialized := by
  cases hs with
  | empty _ h1 => rw [h1]; exact ⟨le_top, rfl⟩
  | idle k x hp h1 h2 h3 h4 h5 _ h6 =>
    rw [h6]
    refine ⟨?_, rfl⟩
    rcases h4 with h4 | h4
    · exact h4.ge
    · rw [h4]; exact le_top
  | arrive k s' h1 h2 h3 h4 h5 h6 h7 h8 h9 h10 h11 h12 h13 =>
    exact ⟨by rw [h10]; exact hi.tau k h1, h13.init⟩
  | block k e a s1 d h1 h2 h3 h4 h5 h6 h7 h8 h9 h10 h11 h12 h13 h14 h15 h16 h17 h18 =>
    exact ⟨by rw [h15]; exact hi.tau k h1, h18.init⟩
  | move k e a a' s1 s2 d h1 h2 h3 h4 h5 h6 h7 h8 h9 h10 h11 h12 h13 h14 h15 h16 h17 =>
    exact ⟨by rw [h14]; exact hi.tau k h1, h17.init⟩

/-- The invariant of a sequence of events. -/
theorem simulate_induct {N : NetCfg T R} (hN : N.OkA) {b : Nat → Bool} (P : Net T R → Prop)
    (hP : ∀ n n', NetReach N b n → P n → n.simulate N 1 = .ok n' → P n') (m : Nat) : ∀ {n n' : Net T R},
    NetReach N b n → P n → n.simulate N m = .ok n' → P n' ∧ NetReach N b n' := by
  induction m with
  | zero =>
    intro n n' h hp hr
    simp only [Net.simulate, Net.steps] at hr
    split at hr
    · simp only [Except.ok.injEq] at hr; rw [← hr]; exact ⟨hp, h⟩
    · simp at hr
  | succ m ih =>
    intro n n' h hp hr
    unfold Net.simulate at hr
    split at hr
    · rename_i hinit
      simp only [Net.steps] at hr
      split at hr
      · simp at hr
      · rename_i n1 h1
        have hs1 : n.simulate N 1 = .ok n1 := by rw [simulate_one, if_pos hinit, h1]
        cases m with
        | zero =>
          simp only [Net.steps, Except.ok.injEq] at hr
          exact hr ▸ ⟨hP n n1 h hp hs1, h.step .step trivial hs1⟩
        | succ m =>
          by_cases hi1 : n1.initialized = true
          · exact ih (h.step .step trivial hs1) (hP n n1 h hp hs1) (by rw [Net.simulate, if_pos hi1]; exact hr)
          · exfalso
            exact hi1 ((stepA_mono hN (h.invA hN) (step_of_simulateA hN h hs1).2).2.trans hinit)
    · simp at hr

/-- C98: `simulate(n=m)` does not turn back the clock, and nothing is ever scheduled before it. -/
theorem C98_clock_monotone {N : NetCfg T R} (hN : N.OkA) {b : Nat → Bool} {n : Net T R}
    (h : NetReach N b n) :
    (∀ k < N.nE, n.t ≤ (n.qs k).time ∧ ∀ x ∈ pending (n.qs k), n.t ≤ x.time) ∧
    ∀ m n', n.simulate N m = .ok n' → n.t ≤ n'.t := by
  refine ⟨fun k hk => ⟨(h.invA hN).tau k hk, fun x hx =>
    ((h.invA hN).tau k hk).trans (pending_geA (h.invA hN) hk x hx)⟩, ?_⟩
  intro m n' hr
  refine (simulate_induct hN (fun x => n.t ≤ x.t) ?_ m h le_rfl hr).1
  intro n1 n2 h1 h2 h3
  exact h2.trans (stepA_mono hN (h1.invA hN) (step_of_simulateA hN h1 h3).2).1

/-! ## C99: simulating never crashes, num_agents is exact -/

theorem steps_okA {N : NetCfg T R} (hN : N.OkA) (hF : N.NoLoopA) {b : Nat → Bool} (m : Nat) : ∀ {n : Net T R},
    NetReach N b n → n.initialized = true → ∃ n', n.steps N m = .ok n' ∧ NetReach N b n' ∧
      n'.initialized = true := by
  induction m with
  | zero => intro n h hi; exact ⟨n, rfl, h, hi⟩
  | succ m ih =>
    intro n h hinit
    rcases step_specA hN (h.invA hN) hinit with ⟨n1, g1, g2, g3⟩ | ⟨-, g, -⟩
    · have hs1 : n.simulate N 1 = .ok n1 := by rw [simulate_one, if_pos hinit, g1]
      have hreach := h.step .step trivial hs1
      obtain ⟨n', q1, q2, q3⟩ := ih hreach ((stepA_mono hN (h.invA hN) g2).2.trans hinit)
      exact ⟨n', by simp only [Net.steps, g1, q1], q2, q3⟩
    · exact absurd hF g

/-- C99: in a network with queues of any class, none of which is an out-edge of its own target, `simulate(n=m)` never
raises once the network is initialised. With such a loop the claim is false (`C99_resource_loop_crash`). -/
theorem C99_never_crashes {N : NetCfg T R} (hN : N.OkA) (hF : N.NoLoopA) {b : Nat → Bool} {n : Net T R}
    (h : NetReach N b n) (hi : n.initialized = true) (m : Nat) :
    ∃ n', n.simulate N m = .ok n' ∧ NetReach N b n' ∧ n'.initialized = true := by
  rw [Net.simulate, if_pos hi]
  exact steps_okA hN hF m h hi

/-- C99: `simulate(t=d)` never raises either, however long it has run. -/
theorem C99_never_crashes_until [Add T] {N : NetCfg T R} (hN : N.OkA) (hF : N.NoLoopA) {b : Nat → Bool}
    {n : Net T R} (h : NetReach N b n) (hi : n.initialized = true) (d : T) (fuel : Nat) :
    ∀ e, n.simulateT N d fuel ≠ some (.error e) := by
  intro e
  rw [Net.simulateT, if_pos hi]
  generalize n.t + d = u
  induction fuel generalizing n with
  | zero => unfold Net.stepsUntil; split <;> simp
  | succ fuel ih =>
    unfold Net.stepsUntil
    split
    · obtain ⟨n', q1, q2, q3⟩ := steps_okA hN hF 1 h hi
      simp only [Net.steps] at q1
      cases hst : n.step N with
      | error e => rw [hst] at q1; simp at q1
      | ok n1 =>
        rw [hst] at q1
        simp only [Except.ok.injEq] at q1
        simp only
        exact ih (q1 ▸ q2) (q1 ▸ q3)
    · simp

/-- C99: even with loops the only error is the TypeError of `pop` answering None when the scheduler holds only stale
entries. -/
theorem C99_only_error {N : NetCfg T R} (hN : N.OkA) {b : Nat → Bool} {n : Net T R} (h : NetReach N b n)
    (hi : n.initialized = true) {e : DestErr} (hr : n.simulate N 1 = .error e) :
    e = .py .typeError ∧ ¬ N.NoLoopA ∧ n.heap.size ≠ 0 := by
  rw [simulate_one, if_pos hi] at hr
  rcases step_specA hN (h.invA hN) hi with ⟨n2, g1, -⟩ | ⟨g1, g2, g3⟩
  · rw [g1] at hr; simp at hr
  · rw [g1] at hr
    simp only [Except.error.injEq] at hr
    refine ⟨hr.symm, g2, ?_⟩
    intro hs
    rw [Net.step, if_pos hs] at g1
    simp at g1

/-- C99: `num_agents[k]` is the number of agents scheduled, waiting or in service at queue `k`. -/
theorem C99_num_agents {N : NetCfg T R} (hN : N.OkA) {b : Nat → Bool} {n : Net T R} (h : NetReach N b n)
    {k : Nat} (hk : k < N.nE) :
    n.numAgents k = ((agents (n.qs k).arrivals).length + (n.qs k).queue.length +
      (agents (n.qs k).departures).length : Nat) := by
  have hi := h.invA hN
  rw [hi.num k hk, (hi.good k hk).total]
  simp [presentIds, add_assoc]

/-- Queue 0 is a loop at vertex 1 with a ResourceQueue; queue 1, a QueueServer for ResourceAgents, leads to vertex 1;
a NullQueue leaves it. All services take one unit of time. -/
def resLoopNet : NetCfg ℕ∞ Nat where
  nE := 3
  qc k := match k with
    | 0 => { demoQ .resource 1 1 0 1 1 1 (.fin 0) with servers := .fin 5 }
    | 1 => { demoQ .server 0 1 1 1 5 1 .inf with deactiveT := 11, factory := .resource false false }
    | _ => demoQ .null 1 2 k 0 1 1 .inf
  outEdges v := match v with
    | 0 => [1]
    | 1 => [0, 2]
    | _ => []
  maxAgents := .inf
  unif i := if i = 3 then 2 else 0
  jit _ t := t
  garbage _ _ := (0, 0)

theorem resLoopNet_ok : resLoopNet.OkA := by
  refine ⟨by decide, ?_, by decide, by decide, fun _ _ => le_rfl⟩
  intro k hk
  have : k = 0 ∨ k = 1 ∨ k = 2 := by
    have : k < 3 := hk
    omega
  rcases this with rfl | rfl | rfl <;> exact ⟨fun n t => le_self_add, fun n t => le_self_add⟩

/-- State of `resLoopNet` after `m` events. -/
def resLoopAt (m : Nat) : Net ℕ∞ Nat :=
  resNet resLoopNet (fun _ => true) true (fun v => List.replicate (resLoopNet.outEdges v).length 1)
    (.initialise (fun l _ => l) (.queues [1]) :: List.replicate m .step)

/-- C99 without `N.NoLoopA` is false, although all service times are finite (F38). The first agent leaves the loop with
a resource, enters it again, leaves the resource there and is gone, whereupon the key `(infty, 0)` is pushed. A second
agent passes the loop and makes this entry stale. Then `pop` answers None and `simulate` raises a TypeError. -/
theorem C99_resource_loop_crash : resLoopNet.OkA ∧ NetReach resLoopNet (fun _ => true) (resLoopAt 6) ∧
    (resLoopAt 6).initialized = true ∧ (resLoopAt 6).t = 12 ∧ (resLoopAt 3).t = 7 ∧
    ((resLoopAt 3).qs 0).numServers = .fin 4 ∧ everyone resLoopNet (resLoopAt 6).qs = [] ∧
    (match (resLoopAt 6).simulate resLoopNet 1 with
      | .error (.py e) => decide (e = .typeError)
      | _ => false) = true :=
  ⟨resLoopNet_ok, reachNet _ _ _ _ _ (fun _ => List.length_replicate), by decide +kernel, by decide +kernel,
    by decide +kernel, by decide +kernel, by decide +kernel, by decide +kernel⟩

/-! ## C100: agents -/

/-- What became of an agent that is no longer in the network: a NullQueue took it, or a LossQueue or ResourceQueue
turned it away, or it left its resource at a ResourceQueue (which then has one more server, unless the queue is a
loop, where the agent took one at the same moment). -/
def GoneToA (N : NetCfg T R) (n n' : Net T R) (a : Agent T) : Prop :=
  ∃ e < N.nE,
    (((N.qc e).kind = .null ∧ ∃ k < N.nE, e ∈ N.outEdges (N.qc k).edge.tgt ∧ ∃ x ∈ agents (n.qs k).departures,
        x.id = a.id) ∨
      (((N.qc e).kind = .loss ∨ (N.qc e).kind = .resource) ∧
        ∃ x : Agent T, x.id = a.id ∧ (n'.qs e).lost = (n.qs e).lost ++ [x]) ∨
      ((N.qc e).kind = .resource ∧ (∃ had, a.kind = .resource true had) ∧ (n'.qs e).lost = (n.qs e).lost ∧
        (e ∉ N.outEdges (N.qc e).edge.tgt → (n'.qs e).numServers = (n.qs e).numServers.addInt 1)))

/-- C100: agents are neither created nor destroyed nor duplicated in an event of a network with queues of any class,
except that one may come from outside (it gets the next id of its queue) and one may be gone in one of the ways of
`GoneToA`. `everyone` lists the ids of all agents scheduled, waiting or in service in the network. -/
theorem C100_agents_conserved {N : NetCfg T R} (hN : N.OkA) {b : Nat → Bool} {n n' : Net T R}
    (h : NetReach N b n) (hr : n.simulate N 1 = .ok n') :
    ∃ (new : List (Nat × Nat)) (gone : List (Agent T)),
      (everyone N n'.qs ++ gone.map (·.id)).Perm (new ++ everyone N n.qs) ∧ new.length ≤ 1 ∧ gone.length ≤ 1 ∧
      (∀ x ∈ new, ∃ k < N.nE, x = (k, (n.qs k).oArrivals) ∧ (n'.qs k).oArrivals = (n.qs k).oArrivals + 1) ∧
      (∀ a ∈ gone, GoneToA N n n' a) ∧
      (∀ k < N.nE, k ∉ new.map (·.1) → (n'.qs k).oArrivals = (n.qs k).oArrivals) := by
  have hi := h.invA hN
  obtain ⟨-, hs⟩ := step_of_simulateA hN h hr
  cases hs with
  | empty _ h1 => exact ⟨[], [], by rw [h1]; simp, by simp, by simp, by simp, by simp, by rw [h1]; simp⟩
  | idle _ _ _ _ _ _ _ _ _ h1 =>
    exact ⟨[], [], by rw [h1]; simp, by simp, by simp, by simp, by simp, by rw [h1]; simp⟩
  | arrive k s' h1 h2 h3 h4 h5 h6 h7 h8 h9 h10 =>
    obtain ⟨m1, m2, m3, m4, m5, m6⟩ := maybeInactive_same ((n.qs k).active && n.maxed N) (n.qs k)
    have hsv : (if ((n.qs k).active && n.maxed N) = true then setInactive (n.qs k) else n.qs k).numServers =
      (n.qs k).numServers := by split <;> rfl
    obtain ⟨ext, gone, g1, g2, g3, g4, g5, g6, -⟩ := h7.out.ids
    rw [setInactive_ids] at g1
    have hself : n'.qs k = s' := by rw [h8, Function.update_self]
    have hoA : (n'.qs k).oArrivals = (n.qs k).oArrivals + ext.length := by rw [hself, g2, m5]
    refine ⟨ext.map (·.id), gone, by rw [h8]; exact everyone_update h1 g1, by simpa using g4, g5, ?_, ?_, ?_⟩
    · intro x hx
      obtain ⟨a, ha, rfl⟩ := List.mem_map.mp hx
      refine ⟨k, h1, by rw [g3 a ha, m5, hN.idx k h1], ?_⟩
      have : ext.length = 1 := by
        have := List.length_pos_of_mem ha; omega
      rw [hoA, this]
    · intro a ha
      obtain ⟨-, hl⟩ := g6 a ha
      unfold LeftA at hl
      rw [m6, hsv] at hl
      refine ⟨k, h1, ?_⟩
      rw [hself]
      rcases hl with ⟨q1, q2, -⟩ | ⟨q1, q2, q3, q4⟩
      · exact .inr (.inl ⟨q1, q2⟩)
      · exact .inr (.inr ⟨q1, q2, q4, fun _ => q3⟩)
    · intro j hj he
      by_cases hjk : j = k
      · subst hjk
        rw [hoA]
        cases ext with
        | nil => rfl
        | cons x l => exact absurd (by simp [g3 x, hN.idx j h1]) he
      · rw [h8, Function.update_of_ne hjk]
  | block k e a s1 d h1 h2 h3 h4 h5 h6 h7 h8 h9 h10 h11 h12 h13 h14 h15 =>
    refine ⟨[], [], ?_, by simp, by simp, by simp, by simp, ?_⟩
    · rw [h13]
      have e1 : (everyone N (Function.update n.qs e
          { n.qs e with numBlocked := (n.qs e).numBlocked + 1 }) ++ []).Perm ([] ++ everyone N n.qs) :=
        everyone_update h3 (by simp [presentIds])
      refine (everyone_update h1 (A := []) (B := []) ?_).trans (by simpa using e1)
      rw [Function.update_of_ne h4]
      simpa using h12.ids
    · intro j hj _
      by_cases hjk : j = k
      · subst hjk
        rw [h13, Function.update_self]; exact h12.same.2.2.2.2.2.2.2.2.1
      · rw [h13, Function.update_of_ne hjk]
        by_cases hje : j = e
        · subst hje; rw [Function.update_self]
        · rw [Function.update_of_ne hje]
  | move k e a a' s1 s2 d h1 h2 h3 h4 h5 h6 h7 h8 h9 h10 h11 h12 h13 h14 =>
    obtain ⟨g1, g2, -, g3, ext, gone, g4, g5, g6, g6', g7, g8⟩ :=
      event_of_moveA h10 h11 (null_of_goodA hi h3 h4) h12
    obtain ⟨hid, -, hoAr, hlos, -⟩ := h10.ids
    have haid : a'.id = a.id := by rw [h10.same]
    have hself : n'.qs e = s2 := by rw [h12, Function.update_self]
    refine ⟨ext.map (·.id), gone, ?_, by simpa using g4, g5, ?_, ?_, ?_⟩
    · have e1 : (everyone N (Function.update n.qs k s1) ++ [a.id]).Perm ([] ++ everyone N n.qs) :=
        everyone_update h1 (by
          rw [haid] at hid
          simpa using (List.perm_append_singleton _ _).trans hid.symm)
      have e2 : (everyone N n'.qs ++ gone.map (·.id)).Perm
          ((ext.map (·.id) ++ [a.id]) ++ everyone N (Function.update n.qs k s1)) := by
        rw [h12]
        refine everyone_update h3 ?_
        rw [hself] at g8
        simpa using g8
      refine e2.trans ?_
      rw [List.append_assoc]
      refine List.Perm.append_left _ (List.perm_append_comm.trans ?_)
      simpa using e1
    · intro x hx
      obtain ⟨y, hy, rfl⟩ := List.mem_map.mp hx
      refine ⟨e, h3, by rw [g6 y hy, hN.idx e h3], ?_⟩
      have : ext.length = 1 := by
        have := List.length_pos_of_mem hy; omega
      rw [g6', this]
    · intro y hy
      have hout := mem_outA hN hi h1 h4 h8
      rcases g7 with ⟨q1, q2, -⟩ | ⟨q1, q2⟩
      · rw [q2] at hy
        simp only [List.mem_singleton] at hy
        subst hy
        exact ⟨e, h3, .inl ⟨q1, k, h1, hout, a, g1, haid.symm⟩⟩
      · obtain ⟨-, hl⟩ := q2 y hy
        refine ⟨e, h3, ?_⟩
        rw [hself]
        have hlo : (Function.update n.qs k s1 e).lost = (n.qs e).lost := by
          by_cases h : e = k
          · subst h; rw [Function.update_self, hlos]
          · rw [Function.update_of_ne h]
        rcases hl with ⟨w1, w2, -⟩ | ⟨w1, w2, w3, w4⟩
        · exact .inr (.inl ⟨w1, by rw [← hlo]; exact w2⟩)
        · refine .inr (.inr ⟨w1, w2, by rw [w4, hlo], fun hno => ?_⟩)
          have hek : e ≠ k := by rintro rfl; exact hno hout
          rw [w3, Function.update_of_ne hek]
    · intro j hj he
      by_cases hje : j = e
      · subst hje
        rw [g6']
        cases ext with
        | nil => rfl
        | cons x l => exact absurd (by simp [g6 x, hN.idx j h3]) he
      · by_cases hjk : j = k
        · subst hjk
          rw [h12, Function.update_of_ne hje, Function.update_self, hoAr]
        · rw [g2 j hjk hje]

/-- The loop in `initialize` adds at most one agent for each queue of the list. -/
theorem activate_totalA {N : NetCfg T R} (hN : N.OkA) {b : Nat → Bool} : ∀ (l : List Nat) (n n' : Net T R),
    (∀ k < N.nE, QGoodA (N.qc k) (b k) (n.qs k) ∧ n.numAgents k = (n.qs k).numTotal) →
    Net.activate N l n = .ok n' → n'.total N ≤ n.total N + l.length := by
  intro l
  induction l with
  | nil => intro n n' _ h; simp only [Net.activate, Except.ok.injEq] at h; rw [h]; simp
  | cons e es ih =>
    intro n n' hg h
    simp only [Net.activate] at h
    split at h
    · simp at h
    · rename_i he
      have he : e < N.nE := by omega
      obtain ⟨s', g1, g2, -, -, -, -, -, -, -, -, -, g3⟩ :=
        activate_oneA (hN.fwd e he) (hg e he).1
      rw [g1] at h
      simp only at h
      have h1 := ih _ _ (fun k hk => by
        by_cases hke : k = e
        · subst hke; simp [Net.setNum, Net.setQ, g2]
        · simpa [Net.setNum, Net.setQ, hke] using hg k hk) h
      have h2 := total_update (N := N) (n := n) (n' := (n.setQ e s').setNum e s'.numTotal) he
        (v := s'.numTotal) rfl
      have h3 := (hg e he).2
      simp only [List.length_cons]
      push_cast
      omega

theorem step_totalA {N : NetCfg T R} {b : Nat → Bool} {n n' : Net T R} (hi : NetInvA N b n) (hi' : NetInvA N b n')
    (hs : StepOutA N n n') {m M : Int} (hm : N.maxAgents = .fin m) (hM : m ≤ M) (hle : n.total N ≤ M) :
    n'.total N ≤ M := by
  cases hs with
  | empty _ h1 => rw [h1]; exact hle
  | idle _ _ _ _ _ _ _ _ _ h1 => rw [h1]; exact hle
  | arrive k s' h1 h2 h3 h4 h5 h6 h7 h8 h9 h10 =>
    have e1 := total_update h1 h9
    have e2 := hi.num k h1
    have hself : n'.qs k = s' := by rw [h8, Function.update_self]
    have t1 := (hi.good k h1).total
    have t2 := (hi'.good k h1).total
    rw [hself] at t2
    obtain ⟨ext, gone, g1, g2, g3, g4, g5, g6, g7, -⟩ := h7.out.ids
    rw [setInactive_ids] at g1
    have g1 := g1.length_eq
    simp only [List.length_append, List.length_map] at g1
    have key : ((n.qs k).active && n.maxed N) = true ∨ (n.qs k).active = false → ext = [] := by
      intro hx
      refine g7 ?_
      rcases hx with hx | hx
      · rw [if_pos hx]; rfl
      · split
        · rfl
        · exact hx
    by_cases hx : ((n.qs k).active && n.maxed N) = true ∨ (n.qs k).active = false
    · rw [key hx] at g1
      simp only [List.length_nil] at g1
      omega
    · push Not at hx
      obtain ⟨hoff, hact⟩ := hx
      simp only [Bool.not_eq_false] at hact
      rw [hact, maxed_iff hm] at hoff
      simp at hoff
      omega
  | block k e a s1 d h1 h2 h3 h4 h5 h6 h7 h8 h9 h10 h11 h12 h13 h14 h15 =>
    rw [total_congr h14]; exact hle
  | move k e a a' s1 s2 d h1 h2 h3 h4 h5 h6 h7 h8 h9 h10 h11 h12 h13 h14 =>
    have e1 := total_update (N := N) (n := n)
      (n' := { n with numAgents := Function.update n.numAgents k s1.numTotal }) h1 rfl
    have e2 := total_update (N := N)
      (n := { n with numAgents := Function.update n.numAgents k s1.numTotal }) (n' := n') h3 h13
    have e3 := h10.total
    have e4 := hi.num k h1
    have e5 : Function.update n.numAgents k s1.numTotal e = (Function.update n.qs k s1 e).numTotal := by
      by_cases hke : e = k
      · subst hke; simp
      · simp [hke]; exact hi.num e h3
    simp only [e5] at e2
    have t1 : (Function.update n.qs k s1 e).numTotal = (presentIds (Function.update n.qs k s1 e)).length := by
      by_cases hke : e = k
      · subst hke
        rw [Function.update_self]
        have := (hi.good e h3).total
        have hl := h10.ids.1.length_eq
        simp only [List.length_cons] at hl
        omega
      · rw [Function.update_of_ne hke]; exact (hi.good e h3).total
    have t2 : s2.numTotal = (presentIds s2).length := by
      have := (hi'.good e h3).total
      rwa [h12, Function.update_self] at this
    cases h11 with
    | null q g1 g2 g3 g4 g5 =>
      have : s2.numTotal = (Function.update n.qs k s1 e).numTotal := by
        rw [g5, (maybeInactive_same _ _).2.2.2.1, g4]
      omega
    | queue g1 g2 =>
      obtain ⟨ext, gone, q1, q2, q3, q4, q5, q6, q7, q, a1, a2, a3, a4⟩ := g2.ids
      have q1 := q1.length_eq
      simp only [List.length_append, List.length_map, List.length_cons] at q1
      have e8 := total_update (N := N)
        (n := { n with numAgents := Function.update n.numAgents k s1.numTotal })
        (n' := { n with numAgents := Function.update (Function.update n.numAgents k s1.numTotal) e q.numTotal })
        h3 rfl
      simp only [e5] at e8
      by_cases hx : q.active = false ∨ stopAt N n k e s1.numTotal q = true
      · rw [a4 hx] at q1
        simp only [List.length_nil] at q1
        omega
      · push Not at hx
        obtain ⟨hact, hoff⟩ := hx
        simp only [Bool.not_eq_false] at hact
        rw [stopAt, hact, maxed_iff hm] at hoff
        simp at hoff
        omega

/-- C100: one operation brings the number of agents scheduled, waiting or in service in the whole network to at most
`max_agents`, when that is not negative, or leaves it at most as it was; except that `initialize` of a running network
adds up to `max_agents`, whatever the classes of the queues (see C109_max_agents_exceeded). -/
theorem C100_max_agents_step {N : NetCfg T R} (hN : N.OkA) {m : Int} (hm : N.maxAgents = .fin m) (h0 : 0 ≤ m)
    {b : Nat → Bool} {n1 n2 : Net T R} (hreach : NetReach N b n1) {op : NetOp R} (hal : op.Allowed N n1)
    (hr : op.run N n1 = .ok n2) :
    ((List.range N.nE).map n2.numAgents).sum ≤ max m ((List.range N.nE).map n1.numAgents).sum ∨
    ∃ pick a, op = .initialise pick a ∧ n1.initialized = true ∧
      ((List.range N.nE).map n2.numAgents).sum ≤ ((List.range N.nE).map n1.numAgents).sum + m := by
  change n2.total N ≤ max m (n1.total N) ∨ ∃ pick a, op = .initialise pick a ∧ n1.initialized = true ∧
    n2.total N ≤ n1.total N + m
  have hi := hreach.invA hN
  have hi' := (hreach.step op hal hr).invA hN
  cases op with
  | step => exact .inl (step_totalA hi hi' (step_of_simulateA hN hreach hr).2 hm (le_max_left _ _) (le_max_right _ _))
  | initialise pick a =>
    simp only [NetOp.run, Net.initialise] at hr
    split at hr
    · simp at hr
    · split at hr
      · simp at hr
      · split at hr
        · simp at hr
        · rename_i l1 hl1 _
          split at hr
          · simp at hr
          · rename_i n3 h3
            split at hr
            · simp at hr
            · simp only [Except.ok.injEq] at hr
              subst hr
              have e1 := activate_totalA hN _ _ _ (fun k hk => ⟨hi.good k hk, hi.num k hk⟩) h3
              have e2 := truncate_length hm h0 l1
              have e4 : ∀ x : PQ T, ({ n3 with heap := x, initialized := true } : Net T R).total N =
                n3.total N := fun _ => rfl
              rw [e4]
              cases hf : n1.initialized with
              | true => exact .inr ⟨pick, a, rfl, rfl, by omega⟩
              | false =>
                have e3 : n1.total N = 0 := by
                  refine total_zero fun k hk => ?_
                  rw [hi.num k hk]; exact ((hi.fresh hf).2.2 k hk).1
                left
                omega
  | clear =>
    simp only [NetOp.run, Except.ok.injEq] at hr
    subst hr
    have : (n1.clear N).total N = 0 := total_zero fun _ _ => rfl
    left
    omega
  | collect x ks =>
    simp only [NetOp.run, Except.ok.injEq] at hr
    subst hr
    rw [total_congr (collect_numAgents x ks n1)]; exact .inl (le_max_right _ _)
  | clearData ks =>
    simp only [NetOp.run, Except.ok.injEq] at hr
    subst hr
    rw [total_congr (clearData_numAgents ks n1)]; exact .inl (le_max_right _ _)
  | setProbs p =>
    simp only [NetOp.run, Except.ok.injEq] at hr
    subst hr; exact .inl (le_max_right _ _)
  | setBlocking x =>
    simp only [NetOp.run, Except.ok.injEq] at hr
    subst hr; exact .inl (le_max_right _ _)
  | copy =>
    obtain ⟨h', g1, -⟩ := hi.copy hN
    simp only [NetOp.run, g1, Except.ok.injEq] at hr
    subst hr; exact .inl (le_max_right _ _)
  | setServers k m =>
    simp only [NetOp.run, Except.ok.injEq] at hr
    subst hr; exact .inl (le_max_right _ _)
  | setInactive k =>
    simp only [NetOp.run, Except.ok.injEq] at hr
    subst hr; exact .inl (le_max_right _ _)

/-- C100: the number of agents scheduled, waiting or in service in the whole network never exceeds `max_agents`, when
that is not negative, whatever the classes of the queues, in histories that call `initialize` only on new or cleared networks. -/
theorem C100_max_agents {N : NetCfg T R} (hN : N.OkA) {m : Int} (hm : N.maxAgents = .fin m) (h0 : 0 ≤ m)
    {b : Nat → Bool} {n : Net T R}
    (hist : NetHist N b (fun n op => ∀ pick a, op = .initialise pick a → n.initialized = false) n) :
    ((List.range N.nE).map n.numAgents).sum ≤ m ∧ ((everyone N n.qs).length : Int) ≤ m := by
  have h := hist.reach
  have key : n.total N ≤ m := by
    clear h
    induction hist with
    | new bas probs hp =>
      have : (Net.init N b bas probs).total N = 0 := total_zero fun _ _ => rfl
      omega
    | step op hh hal hok hr ih =>
      rcases C100_max_agents_step hN hm h0 hh.reach hal hr with h1 | ⟨pick, a, h1, h2, -⟩
      · exact h1.trans (max_le le_rfl ih)
      · exact absurd (hok pick a h1) (by simp [h2])
  refine ⟨key, ?_⟩
  have hlen : ((everyone N n.qs).length : Int) = n.total N := by
    unfold everyone Net.total
    rw [List.length_flatMap]
    push_cast
    congr 1
    rw [List.map_map]
    refine List.map_congr_left fun k hk => ?_
    have hk := List.mem_range.mp hk
    have hi := h.invA hN
    rw [hi.num k hk, (hi.good k hk).total]
    rfl
  rw [hlen]; exact key

/-! ## C101: resources -/

/-- Resources at a queue: the servers of a ResourceQueue (if there are finitely many), and those carried by the agents
on their way to the queue, waiting there or in service. -/
def stock (c : QCfg T) (s : QS T) : Int :=
  (match c.kind, s.numServers with
    | .resource, .fin m => m
    | _, _ => 0) + carried s

/-- Resources in the network. -/
def resources (N : NetCfg T R) (n : Net T R) : Int := ((List.range N.nE).map fun k => stock (N.qc k) (n.qs k)).sum

/-- A ResourceQueue has finitely many servers. -/
def FinRes (c : QCfg T) (s : QS T) : Prop := c.kind = .resource → ∃ m, s.numServers = .fin m

theorem carry_nonneg (k : AgentKind) : 0 ≤ carry k := by unfold carry; split <;> simp

theorem stock_resource {c : QCfg T} {s : QS T} (hk : c.kind = .resource) {m : Int} (hm : s.numServers = .fin m) :
    stock c s = m + carried s := by simp [stock, hk, hm]

theorem stock_other {c : QCfg T} {s : QS T} (hk : c.kind ≠ .resource) : stock c s = carried s := by
  unfold stock
  split
  · rename_i h _; exact absurd h hk
  · simp

theorem evOut_ledger {c : QCfg T} (hf : carry c.factory = 0) {s s' : QS T} {r : Option (Agent T)}
    (h : EvOut c s s' r) : carried s' + carriedOut r ≤ carried s := by
  have hext : ∀ (a : Agent T) (rest : List (Slot T)), (agents s.arrivals).Perm (a :: agents rest) →
      ExtSpec c s s' a.time rest →
      ((agents s'.arrivals).map fun a => carry a.kind).sum + carry a.kind =
      ((agents s.arrivals).map fun a => carry a.kind).sum := by
    intro a rest hp hx
    obtain ⟨ext, x2, -, -, x3, -⟩ := hx.listA
    have h1 := carry_perm hp
    have h2 := carry_perm x2
    have h3 : (ext.map fun a => carry a.kind).sum = 0 := by
      refine List.sum_eq_zero ?_
      intro y hy
      obtain ⟨z, hz, rfl⟩ := List.mem_map.mp hy
      rw [x3 z hz, hf]
    simp only [List.map_cons, List.sum_cons, List.map_append, List.sum_append] at h1 h2
    omega
  unfold carried
  cases h with
  | idle _ _ h => rw [h]; simp [carriedOut]
  | dep a _ e _ =>
    obtain ⟨deps, g1, -, ⟨x, rest, e1, -, e3, -, e4, -⟩ | ⟨-, e2, -, e3, -⟩⟩ := e.served
    · have p1 := carry_perm g1
      have p2 := carry_perm e4
      rw [e.arrivals, e1, e3]
      simp only [List.map_cons, List.sum_cons, carriedOut] at p1 p2 ⊢
      omega
    · have p1 := carry_perm g1
      rw [e.arrivals, e2, e3]
      simp only [List.map_cons, List.sum_cons, carriedOut] at p1 ⊢
      omega
  | arr a rest _ _ _ e _ =>
    have hx := hext a rest e.perm e.ext
    rcases e.served with ⟨-, e2, -, e4, -, -⟩ | ⟨-, e2, -, e4, -, -⟩
    · have p2 := carry_perm e4
      rw [e2]
      simp only [List.map_cons, List.sum_cons, carriedOut] at p2 ⊢
      omega
    · rw [e2, e4]
      simp only [List.map_append, List.sum_append, List.map_cons, List.map_nil, List.sum_cons, List.sum_nil, carriedOut]
      omega
  | block a rest _ _ _ _ e _ =>
    have hx := hext a rest e.perm e.ext
    have := carry_nonneg a.kind
    rw [e.queue, e.departures]
    simp only [carriedOut]
    omega

theorem evA_ledger {c : QCfg T} (hf : carry c.factory = 0) {s s' : QS T} {r : Option (Agent T)}
    (h : EvA c s s' r) (hn : FinRes c s) : FinRes c s' ∧ stock c s' + carriedOut r ≤ stock c s := by
  cases h with
  | simple hk h =>
    refine ⟨fun h => absurd h hk.not_resource, ?_⟩
    rw [stock_other hk.not_resource, stock_other hk.not_resource]
    exact evOut_ledger hf h
  | resource hk h =>
    obtain ⟨m, hm⟩ := hn hk
    obtain ⟨m', g1, g2⟩ := rev_ledger hf hm h
    refine ⟨fun _ => ⟨m', g1⟩, ?_⟩
    rw [stock_resource hk hm, stock_resource hk g1]
    exact g2

theorem stock_congr {c : QCfg T} {s s' : QS T} (h1 : s'.numServers = s.numServers)
    (h2 : carried s' = carried s) : stock c s' = stock c s := by
  unfold stock; rw [h1, h2]

theorem stock_inactive (c : QCfg T) (f : Bool) (s : QS T) :
    stock c (if f then setInactive s else s) = stock c s ∧ ((if f then setInactive s else s).numServers = s.numServers) := by
  cases f <;> exact ⟨rfl, rfl⟩

theorem recvA_ledger {c : QCfg T} (hf : carry c.factory = 0) {off : QS T → Bool} {q2 s2 : QS T} {a : Agent T}
    (h : RecvOutA c off q2 s2 a) (hq : c.kind = .null → NullQ q2) (hn : FinRes c q2) :
    FinRes c s2 ∧ stock c s2 ≤ stock c q2 + carry a.kind := by
  cases h with
  | queue hk h =>
    obtain ⟨m, a1, a2, a3, a4, a5, a6, a7, a8, a9, a10, a11, a12, a13⟩ := h.mid
    obtain ⟨b1, b2⟩ := stock_inactive c (off m) m
    obtain ⟨g1, g2⟩ := evA_ledger hf a13.out (fun h => by rw [b2, a7]; exact hn h)
    refine ⟨g1, ?_⟩
    have hc : carried m = carried q2 + carry a.kind := by
      unfold carried
      have := carry_perm a8
      rw [a9, a10]
      simp only [List.map_cons, List.sum_cons] at this
      omega
    have hst : stock c m = stock c q2 + carry a.kind := by
      unfold stock; rw [a7, hc]; omega
    rw [b1, hst] at g2
    simp only [carriedOut] at g2
    omega
  | null m h1 h2 h3 h4 h5 =>
    have hr : c.kind ≠ .resource := by rw [h1]; simp
    refine ⟨fun h => absurd h hr, ?_⟩
    rw [stock_other hr, stock_other hr]
    have hz : ∀ {s : QS T}, NullQ s → carried s = 0 := by
      intro s hs
      obtain ⟨-, -, -, e4, e5, e6⟩ := hs
      simp [carried, e4, e5, e6]
    rw [hz h3, hz (hq h1)]
    have := carry_nonneg a.kind
    omega

theorem resources_update {N : NetCfg T R} {n n' : Net T R} {k : Nat} (hk : k < N.nE) {s : QS T}
    (h : n'.qs = Function.update n.qs k s) :
    resources N n' + stock (N.qc k) (n.qs k) = resources N n + stock (N.qc k) s := by
  unfold resources
  have := sum_update (fun j => stock (N.qc j) (n.qs j)) N.nE k (stock (N.qc k) s) hk
  have e : (fun j => stock (N.qc j) (n'.qs j)) =
      Function.update (fun j => stock (N.qc j) (n.qs j)) k (stock (N.qc k) s) := by
    funext j
    rw [h]
    by_cases hj : j = k
    · subst hj; simp
    · simp [hj]
  rw [e]; exact this

theorem stepA_ledger {N : NetCfg T R} (hf : ∀ k < N.nE, carry (N.qc k).factory = 0) {b : Nat → Bool} {n n' : Net T R}
    (hi : NetInvA N b n) (hs : StepOutA N n n') (hn : ∀ k < N.nE, FinRes (N.qc k) (n.qs k)) :
    (∀ k < N.nE, FinRes (N.qc k) (n'.qs k)) ∧ resources N n' ≤ resources N n := by
  cases hs with
  | empty _ h1 => rw [h1]; exact ⟨hn, le_rfl⟩
  | idle _ _ _ _ _ _ _ _ _ h1 => rw [h1]; exact ⟨hn, le_rfl⟩
  | arrive k s' h1 h2 h3 h4 h5 h6 h7 h8 h9 h10 =>
    obtain ⟨b1, b2⟩ := stock_inactive (N.qc k) ((n.qs k).active && n.maxed N) (n.qs k)
    obtain ⟨g1, g2⟩ := evA_ledger (hf k h1) h7.out (fun h => by rw [b2]; exact hn k h1 h)
    have := resources_update h1 h8
    rw [b1] at g2
    simp only [carriedOut] at g2
    refine ⟨fun j hj => ?_, by omega⟩
    rw [h8]
    by_cases hjk : j = k
    · subst hjk; rw [Function.update_self]; exact g1
    · rw [Function.update_of_ne hjk]; exact hn j hj
  | block k e a s1 d h1 h2 h3 h4 h5 h6 h7 h8 h9 h10 h11 h12 h13 h14 h15 =>
    have u1 := resources_update (N := N) (n := n) (n' := { n with qs := (Function.update n.qs e
      ({ n.qs e with numBlocked := (n.qs e).numBlocked + 1 })) }) h3 rfl
    have u2 := resources_update (N := N) (n := { n with qs := (Function.update n.qs e
      ({ n.qs e with numBlocked := (n.qs e).numBlocked + 1 })) }) (n' := n') h1 h13
    have u1 := add_right_cancel (b := stock (N.qc e) (n.qs e)) u1
    have hsv := h12.same.2.2.2.2.2.2.2.2.2.1
    have e2 : stock (N.qc k) s1 = stock (N.qc k) (n.qs k) := by
      refine stock_congr hsv ?_
      obtain ⟨rest, g1, g2⟩ := h12.deps
      have p1 := carry_perm g1
      have p2 := carry_perm g2
      unfold carried
      rw [h12.same.1, h12.same.2.1]
      simp only [List.map_cons, List.sum_cons] at p1 p2
      omega
    simp only [Function.update_of_ne h4] at u2
    refine ⟨fun j hj => ?_, by rw [u1, e2] at u2; exact (add_right_cancel u2).le⟩
    rw [h13]
    by_cases hjk : j = k
    · subst hjk; rw [Function.update_self]; intro h; rw [hsv]; exact hn j hj h
    · rw [Function.update_of_ne hjk]
      by_cases hje : j = e
      · subst hje; rw [Function.update_self]; exact hn j hj
      · rw [Function.update_of_ne hje]; exact hn j hj
  | move k e a a' s1 s2 d h1 h2 h3 h4 h5 h6 h7 h8 h9 h10 h11 h12 h13 h14 =>
    obtain ⟨g1, g2⟩ := evA_ledger (hf k h1) h10.out (hn k h1)
    simp only [carriedOut] at g2
    have hfe : FinRes (N.qc e) (Function.update n.qs k s1 e) := by
      by_cases hke : e = k
      · subst hke; rw [Function.update_self]; exact g1
      · rw [Function.update_of_ne hke]; exact hn e h3
    obtain ⟨g3, g4⟩ := recvA_ledger (hf e h3) h11 (fun hnull => by
      obtain ⟨q1, q2⟩ := null_of_goodA hi h3 h4 hnull
      rw [Function.update_of_ne q2]; exact q1) hfe
    have u1 := resources_update (N := N) (n := n) (n' := { n with qs := Function.update n.qs k s1 }) h1 rfl
    have u2 := resources_update (N := N) (n := { n with qs := Function.update n.qs k s1 }) (n' := n') h3 h12
    simp only at u2
    refine ⟨fun j hj => ?_, by omega⟩
    rw [h12]
    by_cases hje : j = e
    · subst hje; rw [Function.update_self]; exact g3
    · rw [Function.update_of_ne hje]
      by_cases hjk : j = k
      · subst hjk; rw [Function.update_self]; exact g1
      · rw [Function.update_of_ne hjk]; exact hn j hj

/-- C101: resources are never created. In a network whose ResourceQueues have finitely many servers, and into which
agents come without resources, the servers of all ResourceQueues plus the resources carried by agents anywhere in the
network never become more while the network is simulated. -/
theorem C101_resources_never_created {N : NetCfg T R} (hN : N.OkA) (hf : ∀ k < N.nE, carry (N.qc k).factory = 0)
    {b : Nat → Bool} {n n' : Net T R} (h : NetReach N b n) (hn : ∀ k < N.nE, FinRes (N.qc k) (n.qs k)) {m : Nat}
    (hr : n.simulate N m = .ok n') :
    (∀ k < N.nE, FinRes (N.qc k) (n'.qs k)) ∧ resources N n' ≤ resources N n :=
  (simulate_induct hN (fun x => (∀ k < N.nE, FinRes (N.qc k) (x.qs k)) ∧ resources N x ≤ resources N n)
    (fun n1 n2 h1 h2 h3 => by
      obtain ⟨g1, g2⟩ := stepA_ledger hf (h1.invA hN) (step_of_simulateA hN h1 h3).2 h2.1
      exact ⟨g1, g2.trans h2.2⟩) m h ⟨hn, le_rfl⟩ hr).1

/-! ## A network with a ResourceQueue -/

/-- ResourceAgents come to queue 0, from vertex 0 to 1, go on to the ResourceQueue 1, from 1 to 2, where they take a
resource, and to queue 2, from 2 back to 1, and leave it at the ResourceQueue. -/
def rentNet : NetCfg ℕ∞ Nat where
  nE := 3
  qc k := match k with
    | 0 => { demoQ .server 0 1 0 1 2 1 .inf with factory := .resource false false }
    | 1 => { demoQ .resource 1 2 1 2 5 4 (.fin 0) with
        servers := .fin 4, maxServers := .fin 10, factory := .resource false false }
    | _ => demoQ .server 2 1 k 3 5 2 .inf
  outEdges v := match v with
    | 0 => [0]
    | 1 => [1]
    | _ => [2]
  maxAgents := .fin 3
  unif i := i % 3
  jit _ t := t + 1
  garbage _ _ := (0, 0)

theorem rentNet_ok : rentNet.OkA := by
  refine ⟨by decide, ?_, by decide, by decide, fun _ _ => le_self_add⟩
  intro k hk
  have : k = 0 ∨ k = 1 ∨ k = 2 := by
    have : k < 3 := hk
    omega
  rcases this with rfl | rfl | rfl <;> exact ⟨fun n t => le_self_add, fun n t => le_self_add⟩

/-- State of `rentNet` after `m` events. -/
def rentAt (m : Nat) : Net ℕ∞ Nat :=
  resNet rentNet (fun _ => true) true (fun v => List.replicate (rentNet.outEdges v).length 1)
    (.initialise (fun l _ => l) (.queues [0]) :: List.replicate m .step)

theorem rentAt_reach (m : Nat) : NetReach rentNet (fun _ => true) (rentAt m) :=
  reachNet _ _ _ _ _ (fun _ => List.length_replicate)

theorem rentNet_loop : rentNet.NoLoopA := by
  unfold NetCfg.NoLoopA
  decide

end Verif.NetSpec
