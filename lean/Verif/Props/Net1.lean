import Verif.NetFacts
import Verif.Props.NetWit

/-!
# Properties C39-C43 of networks

`NetReach N b n`: `n` is the state of a network after some history (any length) of `simulate(n=1)`,
`initialize` (on a new or cleared network), `clear`, `clear_data`, `start_/stop_collecting_data`,
`set_transitions`, assignments to `blocking`, and `copy`. `N.Ok` says that the queues are QueueServers,
LossQueues and NullQueues, that arrival and service times lie at or after the time they are asked for, and that
every queue that is not a NullQueue ends in a vertex with an out-edge.
-/

set_option linter.unusedSectionVars false

namespace Verif.NetSpec

variable {T R : Type*} [LinearOrder T] [OrderTop T] [Zero T] [LinearOrder R] [Add R]

/-- Agents with an event ahead: scheduled to arrive or in service. -/
def pending (s : QS T) : List (Agent T) := agents s.arrivals ++ agents s.departures

/-- Agent `a` arrives at queue `k`: it is taken from the scheduled arrivals and is either admitted or, at
a LossQueue, lost; at most one new arrival is scheduled there; no other queue changes. -/
def Arrives (N : NetCfg T R) (n n' : Net T R) (k : Nat) (a : Agent T) : Prop :=
  a ∈ agents (n.qs k).arrivals ∧ (∀ j, j ≠ k → n'.qs j = n.qs j) ∧
  (∃ rest ext, (agents (n.qs k).arrivals).Perm (a :: rest) ∧ (agents (n'.qs k).arrivals).Perm (ext ++ rest) ∧
    ext.length ≤ 1) ∧
  (((n'.qs k).numArrivals = (n.qs k).numArrivals + 1 ∧ (n'.qs k).lost = (n.qs k).lost ∧
      (n'.qs k).numSystem = (n.qs k).numSystem + 1) ∨
    ((N.qc k).kind = .loss ∧ (n'.qs k).numArrivals = (n.qs k).numArrivals ∧
      (n'.qs k).lost.map (·.id) = (n.qs k).lost.map (·.id) ++ [a.id]))

/-- Agent `a` ends its service at queue `k` and goes to queue `e`. -/
def Moves (n n' : Net T R) (k e : Nat) (a : Agent T) : Prop :=
  a ∈ agents (n.qs k).departures ∧ (∀ j, j ≠ k → j ≠ e → n'.qs j = n.qs j) ∧
  (n'.qs k).numDepartures = (n.qs k).numDepartures + 1 ∧
  (e ≠ k → (presentIds (n.qs k)).Perm (a.id :: presentIds (n'.qs k))) ∧
  ∃ new gone : List (Nat × Nat), new.length ≤ 1 ∧ gone.length ≤ 1 ∧
    (e ≠ k → (presentIds (n'.qs e) ++ gone).Perm (new ++ a.id :: presentIds (n.qs e))) ∧
    (e = k → (presentIds (n'.qs e) ++ gone).Perm (new ++ presentIds (n.qs e)))

/-- Agent `a` wants to leave queue `k` for queue `e` but is held back. -/
def Blocked (n n' : Net T R) (k e : Nat) (a : Agent T) : Prop :=
  a ∈ agents (n.qs k).departures ∧ e ≠ k ∧ (∀ j, j ≠ k → j ≠ e → n'.qs j = n.qs j) ∧
  (n'.qs e).numBlocked = (n.qs e).numBlocked + 1 ∧
  n'.qs e = { n.qs e with numBlocked := (n'.qs e).numBlocked } ∧
  ∃ rest t, (agents (n.qs k).departures).Perm (a :: rest) ∧
    (agents (n'.qs k).departures).Perm ({ a with time := t, blocked := a.blocked + 1 } :: rest) ∧
    (n'.qs k).queue = (n.qs k).queue ∧ (n'.qs k).arrivals = (n.qs k).arrivals

/-- An event happened in which agent `a` arrives, moves or is blocked. -/
def Event (N : NetCfg T R) (n n' : Net T R) (k : Nat) (a : Agent T) : Prop :=
  Arrives N n n' k a ∨
    ∃ e ∈ N.outEdges (N.qc k).edge.tgt, Moves n n' k e a ∨ Blocked n n' k e a

theorem step_of_simulate {N : NetCfg T R} (hN : N.Ok) {b : Nat → Bool} {n n' : Net T R}
    (h : NetReach N b n) (hr : n.simulate N 1 = .ok n') : n.initialized = true ∧ StepOut N n n' := by
  rw [simulate_one] at hr
  split at hr
  · rename_i hi
    refine ⟨hi, ?_⟩
    rcases step_spec hN (h.inv hN) hi with ⟨n2, g1, g2, -⟩ | ⟨g1, -⟩
    · rw [g1] at hr; simp only [Except.ok.injEq] at hr; exact hr ▸ g2
    · rw [g1] at hr; simp at hr
  · simp at hr

theorem pending_ge {N : NetCfg T R} {b : Nat → Bool} {n : Net T R} (hi : NetInv N b n) {j : Nat}
    (hj : j < N.nE) : ∀ x ∈ pending (n.qs j), (n.qs j).time ≤ x.time := by
  intro x hx
  refine (hi.good j hj).base.le_pend (mem_pendT.mpr ?_)
  rcases List.mem_append.mp hx with h | h
  · exact .inl ⟨x, h, rfl⟩
  · exact .inr ⟨x, h, rfl⟩

theorem mem_out {N : NetCfg T R} (hN : N.Ok) {b : Nat → Bool} {n : Net T R} (hi : NetInv N b n) {k : Nat}
    (hk : k < N.nE) (hs : Simple (N.qc k)) {a : Agent T} {e d : Nat} (h : n.destination N k a = .ok (e, d)) :
    e ∈ N.outEdges (N.qc k).edge.tgt := by
  obtain ⟨e', d', h1, h2⟩ := destination_ok hN hi.probs hk hs a
  rw [h1] at h
  simp only [Except.ok.injEq, Prod.mk.injEq] at h
  exact h.1 ▸ h2

theorem event_of_arrive {N : NetCfg T R} {n n' : Net T R} {k : Nat} {s0 s' : QS T}
    (hk : (n.qs k).arrivals = s0.arrivals ∧ (n.qs k).lost = s0.lost ∧ (n.qs k).numSystem = s0.numSystem ∧
      (n.qs k).numArrivals = s0.numArrivals)
    (he : ArrEff (N.qc k) s0 s') (hq : n'.qs = Function.update n.qs k s') (hlt : headTime s0.arrivals < ⊤) :
    ∃ a, a.time = headTime s0.arrivals ∧ Arrives N n n' k a := by
  have hx : ∀ (a : Agent T) (rest : List (Slot T)), ExtSpec (N.qc k) s0 s' a.time rest →
      ∃ ext, (agents s'.arrivals).Perm (ext ++ agents rest) ∧ ext.length ≤ 1 := by
    rintro a rest ⟨ext, h1, h2, h3, -⟩
    refine ⟨ext, h2, ?_⟩
    generalize s'.nextCt = ν, s'.active = act, s'.arrCalls = n at h1
    cases h1 <;> simp
  have hother : ∀ j, j ≠ k → n'.qs j = n.qs j := by intro j hj; rw [hq, Function.update_of_ne hj]
  have hself : n'.qs k = s' := by rw [hq, Function.update_self]
  cases he.out with
  | idle h1 _ _ => rw [h1] at hlt; exact absurd hlt (lt_irrefl _)
  | arr a rest _ _ _ e _ =>
    obtain ⟨ext, g1, g2⟩ := hx a rest e.ext
    refine ⟨a, e.time_eq, by rw [hk.1]; exact e.perm.mem_iff.mpr (by simp), hother,
      ⟨agents rest, ext, by rw [hk.1]; exact e.perm, by rw [hself]; exact g1, g2⟩, .inl ⟨?_, ?_, ?_⟩⟩
    · rw [hself, e.numArrivals, hk.2.2.2]
    · rw [hself, e.lost, hk.2.1]
    · rw [hself, e.numSystem, hk.2.2.1]
  | block a rest _ _ hl _ e _ =>
    obtain ⟨ext, g1, g2⟩ := hx a rest e.ext
    refine ⟨a, e.time_eq, by rw [hk.1]; exact e.perm.mem_iff.mpr (by simp), hother,
      ⟨agents rest, ext, by rw [hk.1]; exact e.perm, by rw [hself]; exact g1, g2⟩, .inr ⟨hl, ?_, ?_⟩⟩
    · rw [hself, e.numArrivals, hk.2.2.2]
    · rw [hself, e.lost, hk.2.1]; simp

theorem RecvEff.numDepartures {c : QCfg T} {s s' : QS T} {a : Agent T} {off : QS T → Bool}
    (h : RecvEff c s s' a off) : s'.numDepartures = s.numDepartures := by
  obtain ⟨m, a1, a2, a3, a4, a5, a6, a7, a8, a9, a10, a11, a12, a13⟩ := h.mid
  have b1 : m.numDepartures = s.numDepartures := by
    unfold addArrivalAgent at a1
    split at a1
    · simp only [Except.ok.injEq] at a1; rw [← a1]; split <;> rfl
    · split at a1
      · simp at a1
      · simp only [Except.ok.injEq] at a1; rw [← a1]; unfold bumpTime; rfl
  have b2 : (if off m = true then setInactive m else m).numDepartures = m.numDepartures := by split <;> rfl
  rw [← b1, ← b2]
  cases a13.out with
  | idle _ _ g => rw [g]
  | arr a rest _ _ _ e _ => exact e.numDepartures
  | block a rest _ _ _ _ e _ => exact e.numDepartures

theorem event_of_move {N : NetCfg T R} {n n' : Net T R} {k e : Nat} {a : Agent T} {s1 s2 : QS T}
    {off : QS T → Bool} (hd : DepEff (N.qc k) (n.qs k) s1 a)
    (hr : RecvOut (N.qc e) off (Function.update n.qs k s1 e) s2 a)
    (hnull : (N.qc e).kind = .null → NullQ (n.qs e) ∧ e ≠ k)
    (hq : n'.qs = Function.update (Function.update n.qs k s1) e s2) : 
    a ∈ agents (n.qs k).departures ∧ (∀ j, j ≠ k → j ≠ e → n'.qs j = n.qs j) ∧
    (n'.qs k).numDepartures = (n.qs k).numDepartures + 1 ∧
    (e ≠ k → (presentIds (n.qs k)).Perm (a.id :: presentIds (n'.qs k))) ∧
    ∃ ext gone : List (Agent T), ext.length ≤ 1 ∧ gone.length ≤ 1 ∧
      (∀ x ∈ ext, x.id = ((N.qc e).edge.idx, (n.qs e).oArrivals)) ∧
      (n'.qs e).oArrivals = (n.qs e).oArrivals + ext.length ∧
      (((N.qc e).kind = .null ∧ gone = [a] ∧ ext = []) ∨
        ((N.qc e).kind ≠ .null ∧ (n'.qs e).lost = (n.qs e).lost ++ gone ∧ (gone ≠ [] → (N.qc e).kind = .loss))) ∧
      (presentIds (n'.qs e) ++ gone.map (·.id)).Perm
        (ext.map (·.id) ++ a.id :: presentIds (Function.update n.qs k s1 e)) := by
  have hid := hd.spec.ids
  have he : n'.qs e = s2 := by rw [hq, Function.update_self]
  have hoth : ∀ j, j ≠ k → j ≠ e → n'.qs j = n.qs j := by
    intro j h1 h2; rw [hq, Function.update_of_ne h2, Function.update_of_ne h1]
  have hqk : e ≠ k → n'.qs k = s1 := by
    intro h; rw [hq, Function.update_of_ne (Ne.symm h), Function.update_self]
  have hmem : a ∈ agents (n.qs k).departures := by
    obtain ⟨deps, g1, -⟩ := hd.spec.served
    exact g1.mem_iff.mpr (by simp)
  have hfst : e ≠ k → (presentIds (n.qs k)).Perm (a.id :: presentIds (n'.qs k)) := by
    intro h; rw [hqk h]; exact hid
  have hdep : (n'.qs k).numDepartures = (n.qs k).numDepartures + 1 := by
    by_cases hke : e = k
    · subst hke
      rw [he, ← hd.spec.numDepartures]
      cases hr with
      | null m g1 => exact absurd rfl (hnull g1).2
      | queue g1 g2 =>
        rw [RecvEff.numDepartures g2, Function.update_self]
    · rw [hqk hke]; exact hd.spec.numDepartures
  have hoA : (Function.update n.qs k s1 e).oArrivals = (n.qs e).oArrivals := by
    by_cases h : e = k
    · subst h; rw [Function.update_self, hd.spec.oArrivals]
    · rw [Function.update_of_ne h]
  have hlo : (Function.update n.qs k s1 e).lost = (n.qs e).lost := by
    by_cases h : e = k
    · subst h; rw [Function.update_self, hd.spec.lost]
    · rw [Function.update_of_ne h]
  cases hr with
  | queue h1 h2 =>
    obtain ⟨ext, gone, g1, g2, g3, g4, g5, g6, g7⟩ := h2.ids
    exact ⟨hmem, hoth, hdep, hfst, ext, gone, g4, g6, by rw [← hoA]; exact g3, by rw [he, g2, hoA],
      .inr ⟨h1.ne_null, by rw [he, g5, hlo], g7⟩, by rw [he]; exact g1⟩
  | null m h1 h2 h3 h4 h5 =>
    obtain ⟨hn, hne⟩ := hnull h1
    have hq2 : Function.update n.qs k s1 e = n.qs e := Function.update_of_ne hne _ _
    refine ⟨hmem, hoth, hdep, hfst, [], [a], by simp, by simp, by simp, ?_, .inl ⟨h1, rfl, rfl⟩, ?_⟩
    · rw [he, h5]
      rw [hq2] at h2
      simp only [addArrivalAgent, h1, if_true, Except.ok.injEq] at h2
      rw [← h2, (maybeInactive_same _ _).2.2.2.2.1]
      split <;> simp
    · rw [he, h3.ids, hq2, hn.ids]; simp

theorem null_of_good {N : NetCfg T R} {b : Nat → Bool} {n : Net T R} (hi : NetInv N b n) {k e : Nat}
    (he : e < N.nE) (hs : Simple (N.qc k)) : (N.qc e).kind = .null → NullQ (n.qs e) ∧ e ≠ k := by
  intro h
  refine ⟨?_, by rintro rfl; exact hs.ne_null h⟩
  rcases hi.good e he with ⟨h1, -⟩ | ⟨-, h1⟩
  · exact absurd h h1.ne_null
  · exact h1

/-- C39: if the state of any queue changes in `simulate(n=1)`, an event took place at a queue `k` in
which an agent `a` arrives, moves or is blocked; the time of this event is the new `current_time`, it is the
next event time of queue `k`, and no agent in the network has an earlier event ahead and no queue an earlier
next event time. -/
theorem C39_events_in_time_order {N : NetCfg T R} (hN : N.Ok) {b : Nat → Bool} {n n' : Net T R}
    (h : NetReach N b n) (hr : n.simulate N 1 = .ok n') :
    n'.qs = n.qs ∨ ∃ k < N.nE, ∃ a, Event N n n' k a ∧ a.time = (n.qs k).time ∧ n'.t = a.time ∧
      ∀ j < N.nE, a.time ≤ (n.qs j).time ∧ ∀ x ∈ pending (n.qs j), a.time ≤ x.time := by
  have hi := h.inv hN
  obtain ⟨-, hs⟩ := step_of_simulate hN h hr
  have hle : ∀ k, (∀ j < N.nE, (n.qs k).time ≤ (n.qs j).time) → ∀ a : Agent T, a.time = (n.qs k).time →
      ∀ j < N.nE, a.time ≤ (n.qs j).time ∧ ∀ x ∈ pending (n.qs j), a.time ≤ x.time := by
    intro k hk a ha j hj
    rw [ha]
    exact ⟨hk j hj, fun x hx => (hk j hj).trans (pending_ge hi hj x hx)⟩
  cases hs with
  | empty _ h1 => left; rw [h1]
  | idle _ _ _ _ _ _ _ _ _ h1 => left; rw [h1]
  | arrive k s' h1 h2 h3 h4 h5 h6 h7 h8 h9 h10 =>
    right
    obtain ⟨m1, m2, m3, m4, m5, m6⟩ := maybeInactive_same ((n.qs k).active && n.maxed N) (n.qs k)
    have hr : Reach (N.qc k) (b k) NetOk (n.qs k) := by
      rcases hi.good k h1 with hg | hg
      · exact hg.2
      · exact absurd hg.1 h3.ne_null
    have hb := hr.base h3
    have hle1 : headTime (n.qs k).arrivals ≤ headTime (n.qs k).departures := by
      by_contra hc
      rw [nextEventDescription, if_neg h3.ne_null, if_pos (not_le.mp hc)] at h6
      exact absurd h6 (by decide)
    have ht : (n.qs k).time = headTime (n.qs k).arrivals := by rw [hb.time, nextTime, min_eq_left hle1]
    obtain ⟨a, g1, g2⟩ := event_of_arrive (N := N) (n := n) (n' := n') (k := k)
      ⟨m1.symm, m6.symm, by split <;> rfl, by split <;> rfl⟩ h7 h8 (by rw [m1, ← ht]; exact h4)
    have ga : a.time = (n.qs k).time := by rw [g1, m1, ht]
    exact ⟨k, h1, a, .inl g2, ga, by rw [h10, ga], hle k h5 a ga⟩
  | block k e a s1 d h1 h2 h3 h4 h5 h6 h7 h8 h9 h10 h11 h12 h13 h14 h15 =>
    right
    obtain ⟨rest, g1, g2⟩ := h12.deps
    have ga : a.time = (n.qs k).time := by
      have hlt : headTime (n.qs k).departures < headTime (n.qs k).arrivals := by
        by_contra hc
        rw [nextEventDescription, if_neg h5.ne_null, if_neg hc] at h8
        split at h8 <;> simp at h8
      have := (hi.good k h1).base.time
      rw [this, nextTime, min_eq_right hlt.le]
      have hh := h12.head
      cases hd : (n.qs k).departures with
      | nil => rw [hd] at hh; simp at hh
      | cons x l => rw [hd] at hh; simp at hh; subst hh; rfl
    have e1 : n'.qs e = { n.qs e with numBlocked := (n.qs e).numBlocked + 1 } := by
      rw [h13, Function.update_of_ne (Ne.symm h4), Function.update_self]
    have e2 : n'.qs k = s1 := by rw [h13, Function.update_self]
    refine ⟨k, h1, a, .inr ⟨e, mem_out hN hi h1 h5 h9, .inr ⟨g1.mem_iff.mpr (by simp), Ne.symm h4, ?_, ?_, ?_,
      rest, _, g1, by rw [e2]; exact g2, by rw [e2]; exact h12.same.2.1, by rw [e2]; exact h12.same.1⟩⟩, ga,
      by rw [h15, ga], hle k h7 a ga⟩
    · intro j j1 j2; rw [h13, Function.update_of_ne j1, Function.update_of_ne j2]
    · rw [e1]
    · rw [e1]
  | move k e a s1 s2 d h1 h2 h3 h4 h5 h6 h7 h8 h9 h10 h11 h12 h13 h14 =>
    right
    have ga : a.time = (n.qs k).time := h10.time
    obtain ⟨g1, g2, g3', g3, ext, gone, g4, g5, -, -, g6, g7⟩ :=
      event_of_move h10 h11 (null_of_good hi h3 h4) h12
    refine ⟨k, h1, a, .inr ⟨e, mem_out hN hi h1 h4 h8, .inl ⟨g1, g2, g3', g3, ext.map (·.id), gone.map (·.id),
      by simpa using g4, by simpa using g5, ?_, ?_⟩⟩, ga, by rw [h14, ga], hle k h6 a ga⟩
    · intro he; rwa [Function.update_of_ne he] at g7
    · intro he
      subst he
      rw [Function.update_self] at g7
      exact g7.trans (List.Perm.append_left _ h10.spec.ids.symm)

/-- In the demonstration network the second event is the departure of the first agent at time 3. -/
example : ∃ n n' : Net ℕ∞ Nat, demoNet.Ok ∧ NetReach demoNet (fun _ => true) n ∧
    n.simulate demoNet 1 = .ok n' ∧ n'.t = 3 ∧ (n'.qs 1).numTotal = 1 ∧ (n.qs 1).numTotal = 0 := by
  exact ⟨demoAt 1, demoAt 2, demoNet_ok, demoAt_reach 1, demoAt_step 1 (by decide +kernel),
    by decide +kernel, by decide +kernel, by decide +kernel⟩

/-- C40: `simulate(n=m)` does not turn back the clock, and nothing is ever scheduled before it. -/
theorem C40_clock_monotone {N : NetCfg T R} (hN : N.Ok) {b : Nat → Bool} {n : Net T R}
    (h : NetReach N b n) :
    (∀ k < N.nE, n.t ≤ (n.qs k).time ∧ ∀ x ∈ pending (n.qs k), n.t ≤ x.time) ∧
    ∀ m n', n.simulate N m = .ok n' → n.t ≤ n'.t := by
  refine ⟨fun k hk => ⟨(h.inv hN).tau k hk, fun x hx =>
    ((h.inv hN).tau k hk).trans (pending_ge (h.inv hN) hk x hx)⟩, ?_⟩
  intro m
  induction m generalizing n with
  | zero =>
    intro n' hr
    simp only [Net.simulate, Net.steps] at hr
    split at hr
    · simp only [Except.ok.injEq] at hr; rw [hr]
    · simp at hr
  | succ m ih =>
    intro n' hr
    unfold Net.simulate at hr
    split at hr
    · rename_i hinit
      simp only [Net.steps] at hr
      split at hr
      · simp at hr
      · rename_i n1 h1
        have hs1 : n.simulate N 1 = .ok n1 := by rw [simulate_one, if_pos hinit, h1]
        have hreach := h.step .step trivial hs1
        obtain ⟨-, hs⟩ := step_of_simulate hN h hs1
        have hi := h.inv hN
        have h2 : n.t ≤ n1.t ∧ n1.initialized = true := by
          cases hs with
          | empty _ h1 => rw [h1]; exact ⟨le_top, hinit⟩
          | idle k x hp h1 h2 h3 h4 h5 _ h6 =>
            rw [h6]
            refine ⟨?_, hinit⟩
            rcases h4 with h4 | h4
            · exact h4.ge
            · rw [h4]; exact le_top
          | arrive k s' h1 h2 h3 h4 h5 h6 h7 h8 h9 h10 h11 h12 h13 =>
            exact ⟨by rw [h10]; exact hi.tau k h1, by rw [h13.init]; exact hinit⟩
          | block k e a s1 d h1 h2 h3 h4 h5 h6 h7 h8 h9 h10 h11 h12 h13 h14 h15 h16 h17 h18 =>
            exact ⟨by rw [h15]; exact hi.tau k h1, by rw [h18.init]; exact hinit⟩
          | move k e a s1 s2 d h1 h2 h3 h4 h5 h6 h7 h8 h9 h10 h11 h12 h13 h14 h15 h16 h17 =>
            exact ⟨by rw [h14]; exact hi.tau k h1, by rw [h17.init]; exact hinit⟩
        exact h2.1.trans (ih hreach n' (by rw [Net.simulate, if_pos h2.2]; exact hr))
    · simp at hr

example : (demoAt 4).t = 5 ∧
    (demoAt 20).t = 20 := by decide +kernel

theorem steps_ok {N : NetCfg T R} (hN : N.Ok) (hF : N.NoInf) {b : Nat → Bool} (m : Nat) : ∀ {n : Net T R},
    NetReach N b n → n.initialized = true → ∃ n', n.steps N m = .ok n' ∧ NetReach N b n' ∧
      n'.initialized = true := by
  induction m with
  | zero => intro n h hi; exact ⟨n, rfl, h, hi⟩
  | succ m ih =>
    intro n h hinit
    rcases step_spec hN (h.inv hN) hinit with ⟨n1, g1, g2, g3⟩ | ⟨-, g, -⟩
    · have hs1 : n.simulate N 1 = .ok n1 := by rw [simulate_one, if_pos hinit, g1]
      have hreach := h.step .step trivial hs1
      have hi1 : n1.initialized = true := by
        cases g2 with
        | empty _ h1 => rw [h1]; exact hinit
        | idle k x hp h1 h2 h3 h4 h5 _ h6 => rw [h6]; exact hinit
        | arrive k s' h1 h2 h3 h4 h5 h6 h7 h8 h9 h10 h11 h12 h13 => rw [h13.init]; exact hinit
        | block k e a s1 d h1 h2 h3 h4 h5 h6 h7 h8 h9 h10 h11 h12 h13 h14 h15 h16 h17 h18 =>
          rw [h18.init]; exact hinit
        | move k e a s1 s2 d h1 h2 h3 h4 h5 h6 h7 h8 h9 h10 h11 h12 h13 h14 h15 h16 h17 =>
          rw [h17.init]; exact hinit
      obtain ⟨n', q1, q2, q3⟩ := ih hreach hi1
      exact ⟨n', by simp only [Net.steps, g1, q1], q2, q3⟩
    · exact absurd hF g

/-- C41: once initialised, `simulate(n=m)` never raises, for any `m`; the result is again in a history, so
this can be repeated. `N.NoInf`: service times and jitter are finite and queues have a server, or no queue
is an out-edge of its own target. Without it the claim is false (`C41_infinite_service_crash`). -/
theorem C41_never_crashes {N : NetCfg T R} (hN : N.Ok) (hF : N.NoInf) {b : Nat → Bool} {n : Net T R}
    (h : NetReach N b n) (hi : n.initialized = true) (m : Nat) :
    ∃ n', n.simulate N m = .ok n' ∧ NetReach N b n' ∧ n'.initialized = true := by
  rw [Net.simulate, if_pos hi]
  exact steps_ok hN hF m h hi

/-- C41: `simulate(t=d)` never raises either, however long it has run. -/
theorem C41_never_crashes_until [Add T] {N : NetCfg T R} (hN : N.Ok) (hF : N.NoInf) {b : Nat → Bool}
    {n : Net T R} (h : NetReach N b n) (hi : n.initialized = true) (d : T) (fuel : Nat) :
    ∀ e, n.simulateT N d fuel ≠ some (.error e) := by
  intro e
  rw [Net.simulateT, if_pos hi]
  generalize n.t + d = u
  induction fuel generalizing n with
  | zero => unfold Net.stepsUntil; split <;> simp
  | succ fuel ih =>
    unfold Net.stepsUntil
    split
    · obtain ⟨n', q1, q2, q3⟩ := steps_ok hN hF 1 h hi
      simp only [Net.steps] at q1
      cases hst : n.step N with
      | error e => rw [hst] at q1; simp at q1
      | ok n1 =>
        rw [hst] at q1
        simp only [Except.ok.injEq] at q1
        simp only
        exact ih (q1 ▸ q2) (q1 ▸ q3)
    · simp

example : demoNet.Ok ∧ demoNet.NoInf ∧ (demoAt 0).initialized :=
  ⟨demoNet_ok, demoNet_noInf, by decide +kernel⟩

/-- Queue 0 is a loop at vertex 1 and its second service never ends; queue 1 leads to vertex 1; a NullQueue
leaves it. -/
def loopNet : NetCfg ℕ∞ Nat where
  nE := 3
  qc k := match k with
    | 0 => { demoQ .server 1 1 0 1 1 1 .inf with
        servers := .fin 2, serviceF := fun i t => if i = 1 then ⊤ else t + 1 }
    | 1 => { demoQ .server 0 1 1 1 5 1 .inf with deactiveT := 11 }
    | _ => demoQ .null 1 2 k 0 1 1 .inf
  outEdges v := match v with
    | 0 => [1]
    | 1 => [0, 2]
    | _ => []
  maxAgents := .inf
  unif i := if i = 3 then 2 else 0
  jit _ t := t
  garbage _ _ := (0, 0)

theorem loopNet_ok : loopNet.Ok := by
  refine ⟨by decide, by unfold Simple; decide, ?_, by unfold Simple; decide, by unfold Simple; decide,
    fun _ _ => le_rfl⟩
  intro k hk
  have : k = 0 ∨ k = 1 ∨ k = 2 := by
    have : k < 3 := hk
    omega
  rcases this with rfl | rfl | rfl
  · refine ⟨fun n t => le_self_add, fun n t => ?_⟩
    simp only [loopNet]
    split
    · exact le_top
    · exact le_self_add
  · exact ⟨fun n t => le_self_add, fun n t => le_self_add⟩
  · exact ⟨fun n t => le_self_add, fun n t => le_self_add⟩

/-- State of `loopNet` after `m` events. -/
def loopAt (m : Nat) : Net ℕ∞ Nat :=
  resNet loopNet (fun _ => true) true (fun v => List.replicate (loopNet.outEdges v).length 1)
    (.initialise (fun l _ => l) (.queues [1]) :: List.replicate m .step)

/-- C41 without `N.NoInf` is false: the loop gets an infinite service time, whereupon the key
`(infty, 0)` is pushed; when the other agents are gone `pop` answers `None` and `simulate` raises a
TypeError. -/
theorem C41_infinite_service_crash : loopNet.Ok ∧ NetReach loopNet (fun _ => true) (loopAt 6) ∧
    (loopAt 6).initialized = true ∧ (loopAt 6).t = 12 ∧
    (match (loopAt 6).simulate loopNet 1 with
      | .error (.py e) => decide (e = .typeError)
      | _ => false) = true :=
  ⟨loopNet_ok, reachNet _ _ _ _ _ (fun _ => List.length_replicate), by decide +kernel, by decide +kernel,
    by decide +kernel⟩

/-- C42: `num_agents[k]` is the number of agents scheduled, waiting or in service at queue `k`. -/
theorem C42_num_agents {N : NetCfg T R} (hN : N.Ok) {b : Nat → Bool} {n : Net T R} (h : NetReach N b n)
    {k : Nat} (hk : k < N.nE) :
    n.numAgents k = ((agents (n.qs k).arrivals).length + (n.qs k).queue.length +
      (agents (n.qs k).departures).length : Nat) := by
  have hi := h.inv hN
  rw [hi.num k hk]
  rcases hi.good k hk with ⟨h1, h2⟩ | ⟨-, h1, h2, h3, h4, h5, h6⟩
  · have hq := h2.inv h1
    rw [hq.numTotal, hq.numSystem]; push_cast; omega
  · rw [h2, h4, h5, h6]; rfl

example : (demoAt 10).numAgents 0 = 4 ∧
    ((demoAt 10).qs 0).queue.length = 2 := by decide +kernel

/-- What became of an agent that is no longer in the network: a NullQueue took it, or a LossQueue
lost it. -/
def GoneTo (N : NetCfg T R) (n n' : Net T R) (a : Agent T) : Prop :=
  (∃ k < N.nE, ∃ e < N.nE, (N.qc e).kind = .null ∧ e ∈ N.outEdges (N.qc k).edge.tgt ∧
      a ∈ agents (n.qs k).departures) ∨
    ∃ e < N.nE, (N.qc e).kind = .loss ∧ (n'.qs e).lost = (n.qs e).lost ++ [a]

/-- C43: agents are neither created nor destroyed nor duplicated in an event, except that one may come
from outside (it gets the next id of its queue) and one may be absorbed by a NullQueue or lost at a
LossQueue. `everyone` lists the ids of all agents scheduled, waiting or in service in the network. -/
theorem C43_agents_conserved {N : NetCfg T R} (hN : N.Ok) {b : Nat → Bool} {n n' : Net T R}
    (h : NetReach N b n) (hr : n.simulate N 1 = .ok n') :
    ∃ (new : List (Nat × Nat)) (gone : List (Agent T)),
      (everyone N n'.qs ++ gone.map (·.id)).Perm (new ++ everyone N n.qs) ∧ new.length ≤ 1 ∧ gone.length ≤ 1 ∧
      (∀ x ∈ new, ∃ k < N.nE, x = (k, (n.qs k).oArrivals) ∧ (n'.qs k).oArrivals = (n.qs k).oArrivals + 1) ∧
      (∀ a ∈ gone, GoneTo N n n' a) ∧
      (∀ k < N.nE, k ∉ new.map (·.1) → (n'.qs k).oArrivals = (n.qs k).oArrivals) := by
  have hi := h.inv hN
  obtain ⟨-, hs⟩ := step_of_simulate hN h hr
  cases hs with
  | empty _ h1 => exact ⟨[], [], by rw [h1]; simp, by simp, by simp, by simp, by simp, by rw [h1]; simp⟩
  | idle _ _ _ _ _ _ _ _ _ h1 =>
    exact ⟨[], [], by rw [h1]; simp, by simp, by simp, by simp, by simp, by rw [h1]; simp⟩
  | arrive k s' h1 h2 h3 h4 h5 h6 h7 h8 h9 h10 =>
    obtain ⟨m1, m2, m3, m4, m5, m6⟩ := maybeInactive_same ((n.qs k).active && n.maxed N) (n.qs k)
    obtain ⟨ext, gone, g1, g2, g3, g4, g5, g6, g7, -⟩ := h7.out.ids
    rw [setInactive_ids] at g1
    have hself : n'.qs k = s' := by rw [h8, Function.update_self]
    have hoA : (n'.qs k).oArrivals = (n.qs k).oArrivals + ext.length := by rw [hself, g2, m5]
    refine ⟨ext.map (·.id), gone, by rw [h8]; exact everyone_update h1 g1, by simpa using g4, g6, ?_, ?_, ?_⟩
    · intro x hx
      obtain ⟨a, ha, rfl⟩ := List.mem_map.mp hx
      refine ⟨k, h1, by rw [g3 a ha, m5, hN.idx k h1], ?_⟩
      have : ext.length = 1 := by
        have := List.length_pos_of_mem ha; omega
      rw [hoA, this]
    · intro a ha
      refine .inr ⟨k, h1, g7 (List.ne_nil_of_mem ha), ?_⟩
      rw [hself, g5, m6]
      have : gone = [a] := by
        match gone, g6, ha with
        | [x], _, ha => simp at ha; rw [ha]
      rw [this]
    · intro j hj he
      by_cases hjk : j = k
      · subst hjk
        rw [hoA]
        cases ext with
        | nil => rfl
        | cons x l => exact absurd (by simp [g3 x, hN.idx j h1]) he
      · rw [h8, Function.update_of_ne hjk]
  | block k e a s1 d h1 h2 h3 h4 h5 h6 h7 h8 h9 h10 h11 h12 h13 h14 h15 =>
    refine ⟨[], [], ?_, by simp, by simp, by simp, by simp, ?_⟩
    · rw [h13]
      have e1 : (everyone N (Function.update n.qs e
          { n.qs e with numBlocked := (n.qs e).numBlocked + 1 }) ++ []).Perm ([] ++ everyone N n.qs) :=
        everyone_update h3 (by simp [presentIds])
      refine (everyone_update h1 (A := []) (B := []) ?_).trans (by simpa using e1)
      rw [Function.update_of_ne h4]
      simpa using h12.ids
    · intro j hj _
      by_cases hjk : j = k
      · subst hjk
        rw [h13, Function.update_self]; exact h12.same.2.2.2.2.2.2.2.2.1
      · rw [h13, Function.update_of_ne hjk]
        by_cases hje : j = e
        · subst hje; rw [Function.update_self]
        · rw [Function.update_of_ne hje]
  | move k e a s1 s2 d h1 h2 h3 h4 h5 h6 h7 h8 h9 h10 h11 h12 h13 h14 =>
    obtain ⟨g1, g2, -, g3, ext, gone, g4, g5, g6, g6', g7, g8⟩ :=
      event_of_move h10 h11 (null_of_good hi h3 h4) h12
    refine ⟨ext.map (·.id), gone, ?_, by simpa using g4, g5, ?_, ?_, ?_⟩
    · have e1 : (everyone N (Function.update n.qs k s1) ++ [a.id]).Perm ([] ++ everyone N n.qs) :=
        everyone_update h1 (by
          simpa using (List.perm_append_singleton _ _).trans h10.spec.ids.symm)
      have e2 : (everyone N n'.qs ++ gone.map (·.id)).Perm
          ((ext.map (·.id) ++ [a.id]) ++ everyone N (Function.update n.qs k s1)) := by
        rw [h12]
        refine everyone_update h3 ?_
        have : n'.qs e = s2 := by rw [h12, Function.update_self]
        rw [this] at g8
        simpa using g8
      refine e2.trans ?_
      rw [List.append_assoc]
      refine List.Perm.append_left _ (List.perm_append_comm.trans ?_)
      simpa using e1
    · intro x hx
      obtain ⟨y, hy, rfl⟩ := List.mem_map.mp hx
      refine ⟨e, h3, by rw [g6 y hy, hN.idx e h3], ?_⟩
      have : ext.length = 1 := by
        have := List.length_pos_of_mem hy; omega
      rw [g6', this]
    · intro y hy
      rcases g7 with ⟨q1, q2, -⟩ | ⟨q1, q2, q3⟩
      · rw [q2] at hy
        simp only [List.mem_singleton] at hy
        subst hy
        exact .inl ⟨k, h1, e, h3, q1, mem_out hN hi h1 h4 h8, g1⟩
      · refine .inr ⟨e, h3, q3 (List.ne_nil_of_mem hy), ?_⟩
        have : gone = [y] := by
          match gone, g5, hy with
          | [x], _, ha => simp at ha; rw [ha]
        rw [q2, this]
    · intro j hj he
      by_cases hje : j = e
      · subst hje
        rw [g6']
        cases ext with
        | nil => rfl
        | cons x l => exact absurd (by simp [g6 x, hN.idx j h3]) he
      · by_cases hjk : j = k
        · subst hjk
          rw [h12, Function.update_of_ne hje, Function.update_self, h10.spec.oArrivals]
        · rw [g2 j hjk hje]

example : everyone demoNet (demoAt 10).qs =
    [(0, 4), (0, 2), (0, 3), (0, 1), (2, 2), (2, 1)] := by decide +kernel

end Verif.NetSpec
