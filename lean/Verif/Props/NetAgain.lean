import Verif.Props.Net6
import Verif.Props.AnyNet2

/-! # C109, C110: `initialize` of a running network, and when queues stop getting agents from outside -/

set_option linter.unusedSectionVars false
set_option linter.unusedVariables false

namespace Verif.NetSpec

variable {T R : Type*} [LinearOrder T] [OrderTop T] [Zero T] [LinearOrder R] [Add R]

/-! ## C110: the flag `active` -/

/-- The fields that decide whether agents come from outside. -/
def gate (s : QS T) : Bool × Nat × T := (s.active, s.oArrivals, s.nextCt)

theorem gate_ext {s s' : QS T} (h : gate s' = gate s) :
    s'.active = s.active ∧ s'.oArrivals = s.oArrivals ∧ s'.nextCt = s.nextCt := by
  simpa [gate] using h

theorem gate_updateTime (s : QS T) : gate (updateTime s) = gate s := rfl

theorem gate_bumpTime (s : QS T) : gate (bumpTime s) = gate s := by
  unfold bumpTime; split <;> rfl

theorem gate_action (c : QCfg T) (s : QS T) (a : Agent T) (i : Nat) : gate (queueAction c s a i).1 = gate s := by
  unfold queueAction
  simp only
  split
  · split
    · rfl
    · split <;> rfl
  · rfl

theorem gate_service {c : QCfg T} {s s' : QS T} (h : serviceFromQueue c s = .ok s') : gate s' = gate s := by
  unfold serviceFromQueue at h
  split at h
  · simp at h
  · simp only at h
    split at h
    · simp at h
    · simp only [Except.ok.injEq] at h
      rw [← h]
      refine (show _ = _ from rfl).trans ((gate_action _ _ _ _).trans ?_)
      split <;> rfl

/-- An inactive queue stays inactive and makes no agent; an active one makes at most one, and becomes inactive only at its
`deactive_t` or its `active_cap`. -/
structure Gated (c : QCfg T) (g g' : Bool × Nat × T) : Prop where
  off : g.1 = false → g' = g
  why : g.1 = true → g'.1 = false → c.deactiveT ≤ g'.2.2 ∨ c.activeCap.lt g'.2.1 = false
  one : g.2.1 ≤ g'.2.1 ∧ g'.2.1 ≤ g.2.1 + 1

theorem Gated.refl (c : QCfg T) (g : Bool × Nat × T) : Gated c g g :=
  ⟨fun h => rfl, fun h h' => by simp [h] at h', ⟨le_rfl, by omega⟩⟩

theorem Gated.of_eq {c : QCfg T} {g g' : Bool × Nat × T} (h : g' = g) : Gated c g g' := h ▸ .refl c g'

theorem gated_addArrival {c : QCfg T} {s s' : QS T} (ha : s.active = true) (h : addArrival c s = .ok s') :
    Gated c (gate s) (gate s') := by
  unfold addArrival at h
  split at h
  · simp only [Except.ok.injEq] at h; exact .of_eq (by rw [h])
  · split at h
    · simp only at h
      split at h
      · rename_i hd
        simp only [Except.ok.injEq] at h
        subst h
        exact ⟨fun h => by simp [gate, ha] at h, fun _ _ => .inl hd, ⟨le_rfl, by simp [gate]⟩⟩
      · split at h
        · simp at h
        · simp only [Except.ok.injEq] at h
          subst h
          rw [gate_bumpTime]
          refine ⟨fun h => by simp [gate, ha] at h, fun _ hx => ?_, ?_⟩
          · split at hx
            · simp [gate, ha] at hx
            · rename_i hc
              right
              rw [if_neg hc]
              simpa [gate] using hc
          · split <;> simp [gate]
    · simp only [Except.ok.injEq] at h
      subst h
      exact .of_eq (gate_bumpTime s)

theorem gated_maybe {c : QCfg T} {s x s' : QS T} (hx : gate x = gate s)
    (h : (if s.active then addArrival c x else .ok x) = .ok s') : Gated c (gate s) (gate s') := by
  split at h
  · rename_i ha
    have hxa : x.active = true := (congrArg Prod.fst hx).trans ha
    rw [← hx]; exact gated_addArrival hxa h
  · simp only [Except.ok.injEq] at h; exact .of_eq (by rw [← h, hx])

theorem gate_maybe {c : QCfg T} {p : Prop} [Decidable p] {x s' : QS T}
    (h : (if p then serviceFromQueue c x else .ok x) = .ok s') : gate s' = gate x := by
  split at h
  · exact gate_service h
  · simp only [Except.ok.injEq] at h; rw [h]

theorem gated_depart {c : QCfg T} {s s' : QS T} {r : Option (Agent T)} (h : departEvent c s = .ok (s', r)) :
    gate s' = gate s := by
  unfold departEvent at h
  split at h
  · simp at h
  · simp at h
  · simp only at h
    split at h
    · simp at h
    · rename_i s2 h2
      simp only [Except.ok.injEq, Prod.mk.injEq] at h
      rw [← h.1, gate_updateTime, gate_action]
      rw [gate_maybe h2]
      split <;> rfl

theorem gated_arrive {c : QCfg T} {s s' : QS T} {r : Option (Agent T)} (h : arriveEvent c s = .ok (s', r)) :
    Gated c (gate s) (gate s') := by
  unfold arriveEvent at h
  split at h
  · simp at h
  · simp at h
  · simp only at h
    split at h
    · simp at h
    · rename_i s2 h2
      have hg := gated_maybe (s := s) (by rfl) h2
      suffices hs : gate s' = gate s2 by rw [hs]; exact hg
      repeat' split at h
      all_goals first
        | (simp at h; done)
        | (simp only [Except.ok.injEq, Prod.mk.injEq] at h
           rw [← h.1, gate_updateTime]
           simp [gate, (gate_ext (gate_action c _ _ _)).1, (gate_ext (gate_action c _ _ _)).2.1,
             (gate_ext (gate_action c _ _ _)).2.2])

theorem gated_block {c : QCfg T} {s s' : QS T} {r : Option (Agent T)} (h : blockEvent c s = .ok (s', r)) :
    Gated c (gate s) (gate s') := by
  unfold blockEvent at h
  split at h
  · simp at h
  · simp at h
  · simp only at h
    split at h
    · simp at h
    · rename_i s2 h2
      have hg := gated_maybe (s := s) (by rfl) h2
      suffices hs : gate s' = gate s2 by rw [hs]; exact hg
      simp only [Except.ok.injEq, Prod.mk.injEq] at h
      rw [← h.1, gate_updateTime]
      split <;> rfl

theorem gated_base {c : QCfg T} {s s' : QS T} {r : Option (Agent T)} (h : baseEvent c s = .ok (s', r)) :
    Gated c (gate s) (gate s') := by
  unfold baseEvent at h
  split at h
  · exact .of_eq (gated_depart h)
  · split at h
    · exact gated_arrive h
    · simp only [Except.ok.injEq, Prod.mk.injEq] at h; exact .of_eq (by rw [h.1])

theorem gated_loss {c : QCfg T} {s s' : QS T} {r : Option (Agent T)} (h : lossEvent c s = .ok (s', r)) :
    Gated c (gate s) (gate s') := by
  unfold lossEvent at h
  split at h
  · exact gated_base h
  · split at h
    · split at h
      · exact gated_base h
      · exact gated_block h
    · simp only [Except.ok.injEq, Prod.mk.injEq] at h; exact .of_eq (by rw [h.1])

theorem gated_event {c : QCfg T} {s s' : QS T} {r : Option (Agent T)} (h : nextEvent c s = .ok (s', r)) :
    Gated c (gate s) (gate s') := by
  unfold nextEvent at h
  split at h
  · exact gated_base h
  · exact gated_loss h
  · simp only [Except.ok.injEq, Prod.mk.injEq] at h; exact .of_eq (by rw [h.1])
  · unfold resourceEvent at h
    split at h
    · split at h
      · exact gated_loss h
      · split at h
        · split at h
          · unfold depositEvent at h
            split at h
            · simp at h
            · simp at h
            · simp only [Except.ok.injEq, Prod.mk.injEq] at h
              refine .of_eq ?_
              rw [← h.1, gate_updateTime]
              split <;> rfl
          · split at h
            · exact gated_loss h
            · unfold resourceBlock at h
              split at h
              · simp at h
              · simp at h
              · simp only [Except.ok.injEq, Prod.mk.injEq] at h
                refine .of_eq ?_
                rw [← h.1, gate_updateTime]
                split <;> rfl
        · simp only [Except.ok.injEq, Prod.mk.injEq] at h; exact .of_eq (by rw [h.1])
    · exact gated_loss h

theorem gate_some {c : QCfg T} {s s' : QS T} {a : Agent T} (hb : QBase s) (hk : c.kind ≠ .null)
    (h : EvA c s s' (some a)) (hev : nextEvent c s = .ok (s', some a)) :
    gate s' = gate s ∧ s'.numArrivals = s.numArrivals := by
  have hlt : headTime s.departures < headTime s.arrivals ∧ s'.numArrivals = s.numArrivals := by
    cases h with
    | simple _ h => cases h with | dep _ h1 h2 _ => exact ⟨h1, h2.numArrivals⟩
    | resource _ h => cases h with | dep _ _ h1 h2 => exact ⟨h1, h2.numArrivals⟩
  refine ⟨?_, hlt.2⟩
  unfold nextEvent at hev
  have hbase : baseEvent c s = departEvent c s := by unfold baseEvent; rw [if_pos hlt.1]
  have hloss : lossEvent c s = departEvent c s := by unfold lossEvent; rw [if_pos hlt.1, hbase]
  split at hev
  · rw [hbase] at hev; exact gated_depart hev
  · rw [hloss] at hev; exact gated_depart hev
  · simp at hev
  · unfold resourceEvent at hev
    split at hev
    · rw [if_pos hlt.1, hloss] at hev; exact gated_depart hev
    · rw [hloss] at hev; exact gated_depart hev

theorem gate_agent {c : QCfg T} {s s' : QS T} {a : Agent T} (h : addArrivalAgent c s a = .ok s') :
    gate s' = gate s ∧ s'.numArrivals = s.numArrivals := by
  unfold addArrivalAgent at h
  split at h
  · simp only [Except.ok.injEq] at h
    rw [← h]; split <;> exact ⟨rfl, rfl⟩
  · split at h
    · simp at h
    · simp only [Except.ok.injEq] at h
      rw [← h]; exact ⟨gate_bumpTime _, rfl⟩

theorem gate_delay {c : QCfg T} {s s' : QS T} {t : Option T} {k : Nat} (h : DelayOut c s t k s') :
    gate s' = gate s ∧ s'.numArrivals = s.numArrivals := by
  cases h <;> exact ⟨rfl, rfl⟩

/-- What an event of the network does with the flag of a queue; `full` says that `max_agents` was reached before. -/
structure Passed (c : QCfg T) (full : Prop) (s s' : QS T) : Prop where
  off : s.active = false → s'.active = false ∧ s'.oArrivals = s.oArrivals
  why : s.active = true → s'.active = false → full ∨ c.deactiveT ≤ s'.nextCt ∨ c.activeCap.lt s'.oArrivals = false
  full : full → s'.oArrivals = s.oArrivals ∧ (s'.numArrivals ≠ s.numArrivals → s'.active = false)

theorem Passed.of_eq {c : QCfg T} {full : Prop} {s s' : QS T} (h : gate s' = gate s ∧ s'.numArrivals = s.numArrivals) :
    Passed c full s s' := by
  obtain ⟨h1, h2, -⟩ := gate_ext h.1
  exact ⟨fun ha => ⟨h1.trans ha, h2⟩, fun ha hb => by rw [h1, ha] at hb; simp at hb, fun _ => ⟨h2, fun hn => absurd h.2 hn⟩⟩

theorem Passed.arr {c : QCfg T} {full : Prop} {s m s' : QS T} {r : Option (Agent T)} {stop : Bool}
    (hm : gate m = gate s) (h1 : stop = true → full) (h2 : full → m.active = true → stop = true)
    (h : nextEvent c (if stop then setInactive m else m) = .ok (s', r)) : Passed c full s s' := by
  obtain ⟨a1, a2, a3⟩ := gate_ext hm
  have hg := gated_event h
  cases stop with
  | true =>
    rw [if_pos rfl] at hg
    have he := hg.off rfl
    obtain ⟨b1, b2, b3⟩ := gate_ext he
    exact ⟨fun ha => ⟨b1, b2.trans a2⟩, fun _ _ => .inl (h1 rfl), fun _ => ⟨b2.trans a2, fun _ => b1⟩⟩
  | false =>
    rw [if_neg (by simp)] at hg
    refine ⟨fun ha => ?_, fun ha hb => .inr (hg.why (a1.trans ha) hb), fun hf => ?_⟩
    · obtain ⟨b1, b2, b3⟩ := gate_ext (hg.off (a1.trans ha))
      exact ⟨b1.trans (a1.trans ha), b2.trans a2⟩
    · have ha : m.active = false := by
        cases hma : m.active with
        | false => rfl
        | true => exact absurd (h2 hf hma) (by simp)
      obtain ⟨b1, b2, b3⟩ := gate_ext (hg.off ha)
      exact ⟨b2.trans a2, fun _ => b1.trans ha⟩

/-- `max_agents` is reached: a finite number, not more than there are agents. -/
def Full (N : NetCfg T R) (n : Net T R) : Prop :=
  ∃ m, N.maxAgents = .fin m ∧ m ≤ ((List.range N.nE).map n.numAgents).sum

theorem full_iff {N : NetCfg T R} {n : Net T R} : n.maxed N = true ↔ Full N n := by
  unfold Net.maxed Full Net.total
  cases h : N.maxAgents with
  | inf => simp
  | fin m => simp

theorem passed {N : NetCfg T R} (hN : N.OkA) {b : Nat → Bool} {n n' : Net T R} (h : NetReach N b n)
    (hr : n.simulate N 1 = .ok n') : ∀ k < N.nE, Passed (N.qc k) (Full N n) (n.qs k) (n'.qs k) := by
  have hi := h.invA hN
  obtain ⟨-, hs⟩ := step_of_simulateA hN h hr
  intro j hj
  cases hs with
  | empty _ h1 => rw [h1]; exact .of_eq ⟨rfl, rfl⟩
  | idle _ _ _ _ _ _ _ _ _ h1 => rw [h1]; exact .of_eq ⟨rfl, rfl⟩
  | arrive k s' h1 h2 h3 h4 h5 h6 h7 h8 h9 h10 =>
    rw [h8]
    by_cases hjk : j = k
    · subst hjk
      rw [Function.update_self]
      refine Passed.arr rfl (fun hs => ?_) (fun hf ha => ?_) h7.ev
      · simp only [Bool.and_eq_true] at hs; exact full_iff.mp hs.2
      · simp [ha, full_iff.mpr hf]
    · rw [Function.update_of_ne hjk]; exact .of_eq ⟨rfl, rfl⟩
  | block k e a s1 d h1 h2 h3 h4 h5 h6 h7 h8 h9 h10 h11 h12 h13 h14 h15 =>
    rw [h13]
    by_cases hjk : j = k
    · subst hjk
      rw [Function.update_self]
      exact .of_eq (gate_delay h12.out)
    · rw [Function.update_of_ne hjk]
      by_cases hje : j = e
      · subst hje; rw [Function.update_self]; exact .of_eq ⟨rfl, rfl⟩
      · rw [Function.update_of_ne hje]; exact .of_eq ⟨rfl, rfl⟩
  | move k e a a' s1 s2 d h1 h2 h3 h4 h5 h6 h7 h8 h9 h10 h11 h12 h13 h14 =>
    have hd := gate_some (hi.good k h1).base h4 h10.out h10.ev
    rw [h12]
    by_cases hje : j = e
    swap
    · rw [Function.update_of_ne hje]
      by_cases hjk : j = k
      · subst hjk; rw [Function.update_self]; exact .of_eq hd
      · rw [Function.update_of_ne hjk]; exact .of_eq ⟨rfl, rfl⟩
    subst hje
    rw [Function.update_self]
    have hq : gate (Function.update n.qs k s1 j) = gate (n.qs j) ∧
        (Function.update n.qs k s1 j).numArrivals = (n.qs j).numArrivals := by
      by_cases hjk : j = k
      · subst hjk; rw [Function.update_self]; exact hd
      · rw [Function.update_of_ne hjk]; exact ⟨rfl, rfl⟩
    -- the number of agents when it is compared with `max_agents`
    have e1 := total_update (N := N) (n := n)
      (n' := { n with numAgents := Function.update n.numAgents k s1.numTotal }) h1 rfl
    have e3 := h10.total
    have e4 := hi.num k h1
    have e5 : Function.update n.numAgents k s1.numTotal j = (Function.update n.qs k s1 j).numTotal := by
      by_cases hke : j = k
      · subst hke; simp
      · simp [hke]; exact hi.num j h3
    have hstop : ∀ q : QS T, q.numTotal = (Function.update n.qs k s1 j).numTotal + 1 →
        ((stopAt N n k j s1.numTotal q = true → Full N n) ∧
         (Full N n → q.active = true → stopAt N n k j s1.numTotal q = true)) := by
      intro q hq
      have e8 := total_update (N := N)
        (n := { n with numAgents := Function.update n.numAgents k s1.numTotal })
        (n' := { n with numAgents := Function.update (Function.update n.numAgents k s1.numTotal) j q.numTotal })
        h3 rfl
      simp only [e5] at e8
      have et : ({ n with numAgents := Function.update (Function.update n.numAgents k s1.numTotal) j q.numTotal } :
          Net T R).total N = n.total N := by omega
      have em : Net.maxed N { n with
          numAgents := Function.update (Function.update n.numAgents k s1.numTotal) j q.numTotal } = n.maxed N := by
        unfold Net.maxed; rw [et]
      unfold stopAt
      rw [em]
      refine ⟨fun hs => ?_, fun hf ha => ?_⟩
      · simp only [Bool.and_eq_true] at hs; exact full_iff.mp hs.2
      · simp [ha, full_iff.mpr hf]
    cases h11 with
    | queue g1 g2 =>
      obtain ⟨q, m1, m2, m3, -, -, -, -, -, -, -, -, -, m4⟩ := g2.mid
      obtain ⟨c1, c2⟩ := hstop q m2
      exact Passed.arr ((gate_agent m1).1.trans hq.1) c1 c2 m4.ev
    | null q g1 g2 g3 g4 g5 =>
      obtain ⟨a1, a2, a3⟩ := gate_ext ((gate_agent g2).1.trans hq.1)
      have a4 := (gate_agent g2).2.trans hq.2
      by_cases hst : stopAt N n k j s1.numTotal q = true
      swap
      · rw [g5, if_neg hst]; exact .of_eq ⟨(gate_agent g2).1.trans hq.1, a4⟩
      · rw [g5, if_pos hst]
        refine ⟨fun _ => ⟨rfl, a2⟩, fun _ _ => .inl ?_, fun _ => ⟨a2, fun _ => rfl⟩⟩
        have e8 := total_update (N := N)
          (n := { n with numAgents := Function.update n.numAgents k s1.numTotal })
          (n' := { n with numAgents := Function.update (Function.update n.numAgents k s1.numTotal) j q.numTotal })
          h3 rfl
        simp only [e5] at e8
        unfold stopAt Net.maxed at hst
        unfold Full
        cases hmx : N.maxAgents with
        | inf => rw [hmx] at hst; simp at hst
        | fin m =>
          rw [hmx] at hst
          simp only [Bool.and_eq_true, decide_eq_true_eq] at hst
          refine ⟨m, rfl, ?_⟩
          show m ≤ n.total N
          omega

/-- C110: in one event of a network, a queue that is not active stays inactive and gets no agent from outside; an active
queue becomes inactive only if `max_agents` is reached, at its `deactive_t`, or at its `active_cap`; and if `max_agents` is
reached then nobody comes from outside, and each queue at which somebody arrives becomes (or is) inactive. -/
theorem C110_one_event {N : NetCfg T R} (hN : N.OkA) {b : Nat → Bool} {n n' : Net T R} (h : NetReach N b n)
    (hr : n.simulate N 1 = .ok n') : ∀ k < N.nE,
    ((n.qs k).active = false → (n'.qs k).active = false ∧ (n'.qs k).oArrivals = (n.qs k).oArrivals) ∧
    ((n.qs k).active = true → (n'.qs k).active = false →
      (∃ m, N.maxAgents = .fin m ∧ m ≤ ((List.range N.nE).map n.numAgents).sum) ∨
      (N.qc k).deactiveT ≤ (n'.qs k).nextCt ∨ (N.qc k).activeCap.lt (n'.qs k).oArrivals = false) ∧
    (∀ m, N.maxAgents = .fin m → m ≤ ((List.range N.nE).map n.numAgents).sum →
      (n'.qs k).oArrivals = (n.qs k).oArrivals ∧
      ((n'.qs k).numArrivals ≠ (n.qs k).numArrivals → (n'.qs k).active = false)) :=
  fun k hk => let p := passed hN h hr k hk
    ⟨p.off, p.why, fun m h1 h2 => p.full ⟨m, h1, h2⟩⟩

/-- C110: `simulate` never makes a queue active again, and nobody comes from outside to a queue that is not active. -/
theorem C110_never_again {N : NetCfg T R} (hN : N.OkA) {b : Nat → Bool} {n n' : Net T R} (h : NetReach N b n)
    {k : Nat} (hk : k < N.nE) (ha : (n.qs k).active = false) (m : Nat) (hr : n.simulate N m = .ok n') :
    (n'.qs k).active = false ∧ (n'.qs k).oArrivals = (n.qs k).oArrivals :=
  (simulate_induct hN (fun x => (x.qs k).active = false ∧ (x.qs k).oArrivals = (n.qs k).oArrivals)
    (fun n1 n2 h1 h2 h3 => by
      obtain ⟨a1, a2⟩ := (C110_one_event hN h1 h3 k hk).1 h2.1
      exact ⟨a1, a2.trans h2.2⟩) m h ⟨ha, rfl⟩ hr).1

/-- C110: if no queue is active then the agents in the network after any number of events are among those that were
there before, each at most once. -/
theorem C110_only_leave {N : NetCfg T R} (hN : N.OkA) {b : Nat → Bool} {n n' : Net T R} (h : NetReach N b n)
    (ha : ∀ k < N.nE, (n.qs k).active = false) (m : Nat) (hr : n.simulate N m = .ok n') :
    ∃ gone, (everyone N n'.qs ++ gone).Perm (everyone N n.qs) :=
  (simulate_induct hN (fun x => (∀ k < N.nE, (x.qs k).active = false) ∧
      ∃ gone, (everyone N x.qs ++ gone).Perm (everyone N n.qs))
    (fun n1 n2 h1 h2 h3 => by
      obtain ⟨g1, gone, hg⟩ := h2
      refine ⟨fun k hk => ((C110_one_event hN h1 h3 k hk).1 (g1 k hk)).1, ?_⟩
      obtain ⟨new, gone', c1, -, -, c4, -⟩ := C100_agents_conserved hN h1 h3
      have hnew : new = [] := by
        cases hn : new with
        | nil => rfl
        | cons x l =>
          obtain ⟨k, hk, -, hx⟩ := c4 x (by simp [hn])
          have := ((C110_one_event hN h1 h3 k hk).1 (g1 k hk)).2
          omega
      rw [hnew, List.nil_append] at c1
      refine ⟨gone'.map (·.id) ++ gone, ?_⟩
      rw [← List.append_assoc]
      exact (c1.append_right gone).trans hg) m h ⟨ha, [], by simp⟩ hr).1.2

/-! ## C109: `initialize` of a running network -/

/-- Queues 0 and 1 lead from the vertices 0 and 1 to vertex 2, where everybody leaves (NullQueue 2). -/
def twoNet (cap : Cap) : NetCfg ℕ∞ Nat where
  nE := 3
  qc k := match k with
    | 0 => demoQ .server 0 2 0 1 2 1 .inf
    | 1 => demoQ .server 1 2 1 1 1 1 .inf
    | _ => demoQ .null 2 2 k 0 1 1 .inf
  outEdges v := match v with
    | 0 => [0]
    | 1 => [1]
    | _ => [2]
  maxAgents := cap
  unif _ := 0
  jit _ t := t
  garbage _ _ := (0, 0)

theorem twoNet_ok (cap : Cap) : (twoNet cap).Ok := by
  have hk : ∀ k, k < 3 → k = 0 ∨ k = 1 ∨ k = 2 := by omega
  refine ⟨fun k h => ?_, fun k h => ?_, fun k h => ?_, fun k h _ => ?_, fun k h _ e he => ?_, fun _ _ => le_rfl⟩ <;>
    rcases hk k h with rfl | rfl | rfl
  all_goals first
    | rfl
    | exact .inl (.inl rfl)
    | exact .inr rfl
    | exact ⟨fun n t => le_self_add, fun n t => le_self_add⟩
    | (simp [twoNet, demoQ] at he ⊢; omega)
    | exact (by simp [twoNet, demoQ])

theorem twoNet_okA (cap : Cap) : (twoNet cap).OkA :=
  let h := twoNet_ok cap
  ⟨h.idx, h.fwd, by
      intro k hk _; have : ∀ k, k < 3 → k = 0 ∨ k = 1 ∨ k = 2 := by omega
      rcases this k hk with rfl | rfl | rfl <;> simp [twoNet, demoQ], by
      intro k hk _ e he; have : ∀ k, k < 3 → k = 0 ∨ k = 1 ∨ k = 2 := by omega
      rcases this k hk with rfl | rfl | rfl <;> simp [twoNet, demoQ] at he ⊢ <;> omega, h.jit⟩

theorem twoNet_probs (cap : Cap) : ∀ v, ((fun _ => [1] : Nat → List Nat) v).length = ((twoNet cap).outEdges v).length := by
  intro v; unfold twoNet; dsimp only; split <;> rfl

/-- The network after `initialize(queues=[0])` and `m` events. -/
def twoAt (cap : Cap) (m : Nat) : Net ℕ∞ Nat :=
  resNet (twoNet cap) (fun _ => true) true (fun _ => [1]) (.initialise (fun l _ => l) (.queues [0]) :: List.replicate m .step)

theorem twoAt_reach (cap : Cap) (m : Nat) : NetReach (twoNet cap) (fun _ => true) (twoAt cap m) :=
  reachNet _ _ _ _ _ (twoNet_probs cap)

/-- ... then `initialize(queues=[1])` and `i` more events. -/
def twoThen (cap : Cap) (m i : Nat) : Net ℕ∞ Nat :=
  match (twoAt cap m).initialise (twoNet cap) (fun l _ => l) (.queues [1]) with
  | .ok n => match n.simulate (twoNet cap) i with
    | .ok n => n
    | .error _ => twoAt cap m
  | .error _ => twoAt cap m

theorem initialise_parts {N : NetCfg T R} {pick : List Nat → Nat → List Nat} {n n' : Net T R} {l : List Nat}
    (hr : n.initialise N pick (.queues l) = .ok n') :
    ∃ n1 h, (∀ e ∈ l, e < N.nE) ∧
      Net.activate N (Net.truncate N (l.filter fun e => decide ((N.qc e).edge.etype ≠ 0))) n = .ok n1 ∧
      n' = { n1 with heap := h, initialized := true } := by
  unfold Net.initialise Net.selection at hr
  simp only at hr
  split at hr
  · simp at hr
  · rename_i l1 hl1
    have hlt := sift_lt _ _ hl1
    rw [sift_spec l hlt, Except.ok.injEq] at hl1
    split at hr
    · simp at hr
    · split at hr
      · simp at hr
      · rename_i n1 h1
        split at hr
        · simp at hr
        · rename_i h hp
          simp only [Except.ok.injEq] at hr
          exact ⟨n1, h, hlt, by rw [hl1]; exact h1, hr.symm⟩

/-- C109, the part that holds: `initialize(queues=l)` on a network that has been running, for different queues each of
which is active already or had an event just now (its own clock is that of the network), keeps the clock, schedules
nothing before it, and the clock does not run backwards in any number of events afterwards. Missing: queues whose own
clock is behind (`C109_clock_runs_back`, F42). -/
theorem C109_initialize_again_partial {N : NetCfg T R} (hN : N.OkA) {b : Nat → Bool} {n n' : Net T R}
    (h : NetReach N b n) (pick : List Nat → Nat → List Nat) {l : List Nat} (hnd : l.Nodup)
    (hl : ∀ k ∈ l, (n.qs k).active = true ∨ (n.qs k).currentT = n.t)
    (hr : n.initialise N pick (.queues l) = .ok n') :
    NetReach N b n' ∧ n'.t = n.t ∧ (∀ k < N.nE, ∀ x ∈ pending (n'.qs k), n.t ≤ x.time) ∧
    ∀ i n2, n'.simulate N i = .ok n2 → n.t ≤ n2.t := by
  have hi := h.invA hN
  obtain ⟨n1, hp, hlt, ha, he⟩ := initialise_parts hr
  set l1 := Net.truncate N (l.filter fun e => decide ((N.qc e).edge.etype ≠ 0)) with hl1
  have hsub : l1.Sublist l := (truncate_sub N _).trans List.filter_sublist
  obtain ⟨n2, b1, b2, b3, b4, b5⟩ := activate_leA hN l1 n hi.good (fun e he => hlt e (hsub.subset he))
  obtain rfl : n2 = n1 := Except.ok.inj (b1.symm.trans ha)
  have ht : n'.t = n.t := by rw [he]; exact b2
  have hq : n'.qs = n2.qs := by rw [he]
  have hlate : ∀ k < N.nE, n.t ≤ (n'.qs k).time := by
    intro k hk
    rw [hq]
    by_cases hc : k ∈ l1
    · rcases hl k (hsub.subset hc) with h1 | h1
      · have := b5 k hc (hsub.nodup hnd)
        simp only [setActive, h1, if_true, Except.ok.injEq] at this
        rw [← this]; exact hi.tau k hk
      · obtain ⟨c1, c2, -⟩ := b3 k hk
        by_cases hs : (N.qc k).kind ≠ .null
        · rw [← h1, ← c2]; exact c1.cur_le (hN.fwd k hk) hs
        · rcases c1 with ⟨h', -⟩ | ⟨-, h'⟩
          · exact absurd h' hs
          · rw [h'.1]; exact le_top
    · rw [b4 k hc]; exact hi.tau k hk
  have hreach : NetReach N b n' := h.step (.initialise pick (.queues l))
    (.inr fun n3 h3 => by rw [hr] at h3; rw [← Except.ok.inj h3]; exact hlate) hr
  obtain ⟨c1, c2⟩ := C98_clock_monotone hN hreach
  rw [ht] at c1 c2
  exact ⟨hreach, ht, fun k hk => (c1 k hk).2, c2⟩

/-- A case in which C109 holds: queue 0 is active, and just had its first arrival. -/
example : (twoAt .inf 1).initialized = true ∧ (twoAt .inf 1).t = 2 ∧ ((twoAt .inf 1).qs 0).active = true ∧
    ((twoAt .inf 1).qs 0).currentT = 2 ∧
    ((twoAt .inf 1).initialise (twoNet .inf) (fun l _ => l) (.queues [0])).isOk = true := by decide +kernel

/-- C109 as stated is false (F42): at time 6, after five events, `initialize(queues=[1])` schedules an arrival at queue 1
for time 1, because the clock of queue 1 is still 0, and this is the next event. -/
theorem C109_clock_runs_back : (twoNet .inf).Ok ∧ NetReach (twoNet .inf) (fun _ => true) (twoAt .inf 5) ∧
    (twoAt .inf 5).t = 6 ∧ (twoAt .inf 5).numEvents = 5 ∧ (twoThen .inf 5 0).t = 6 ∧ ((twoThen .inf 5 0).qs 1).time = 1 ∧
    (twoThen .inf 5 1).t = 1 ∧ (twoThen .inf 5 1).numEvents = 6 :=
  ⟨twoNet_ok _, twoAt_reach _ _, by decide +kernel⟩

/-- C109 (F42): with `max_agents=1`, `initialize(queues=[0])` and then `initialize(queues=[1])` schedule two agents, and both
get into the network. -/
theorem C109_max_agents_exceeded : (twoNet (.fin 1)).maxAgents = .fin 1 ∧ (twoThen (.fin 1) 0 0).initialized = true ∧
    (everyone (twoNet (.fin 1)) (twoThen (.fin 1) 0 0).qs).length = 2 ∧
    ((twoThen (.fin 1) 0 2).qs 0).numSystem = 1 ∧ ((twoThen (.fin 1) 0 2).qs 1).numSystem = 1 := by
  decide +kernel

/-- C110 (F43): with `max_agents=1`, one agent comes, is served and leaves. From then on the network stays empty, however
many events are simulated, although nobody is there and every `deactive_t` and `active_cap` is infinite. -/
theorem C110_dies : (twoNet (.fin 1)).OkA ∧ NetReach (twoNet (.fin 1)) (fun _ => true) (twoAt (.fin 1) 2) ∧
    (twoAt (.fin 1) 2).t = 3 ∧ ((twoAt (.fin 1) 0).qs 0).active = true ∧
    ((twoNet (.fin 1)).qc 0).deactiveT = ⊤ ∧ ((twoNet (.fin 1)).qc 0).activeCap = .inf ∧
    ∀ m n', (twoAt (.fin 1) 2).simulate (twoNet (.fin 1)) m = .ok n' →
      (∀ k < 3, (n'.qs k).active = false) ∧ everyone (twoNet (.fin 1)) n'.qs = [] := by
  refine ⟨twoNet_okA _, twoAt_reach _ _, by decide +kernel, by decide +kernel, rfl, rfl, fun m n' hr => ?_⟩
  have hoff : ∀ k < 3, ((twoAt (.fin 1) 2).qs k).active = false := by decide +kernel
  have hnone : everyone (twoNet (.fin 1)) (twoAt (.fin 1) 2).qs = [] := by decide +kernel
  refine ⟨fun k hk => (C110_never_again (twoNet_okA _) (twoAt_reach _ _) hk (hoff k hk) m hr).1, ?_⟩
  obtain ⟨gone, hg⟩ := C110_only_leave (twoNet_okA _) (twoAt_reach _ _) hoff m hr
  rw [hnone] at hg
  exact (List.append_eq_nil_iff.mp hg.eq_nil).1

/-- In the first event of this network `max_agents` is reached, and the queue is stopped. -/
example : (twoAt (.fin 1) 0).simulate (twoNet (.fin 1)) 1 = .ok (twoAt (.fin 1) 1) ∧
    ((twoAt (.fin 1) 0).qs 0).active = true ∧ ((twoAt (.fin 1) 1).qs 0).active = false ∧
    ((List.range 3).map (twoAt (.fin 1) 0).numAgents).sum = 1 ∧
    ((twoAt (.fin 1) 1).qs 0).numArrivals ≠ ((twoAt (.fin 1) 0).qs 0).numArrivals := by
  refine ⟨resNet_step (ops := .initialise (fun l _ => l) (.queues [0]) :: List.replicate 0 .step) (by decide +kernel), ?_⟩
  decide +kernel

/-- C110: a negative `max_agents` leaves out queues from the end of the selection: of the two queues asked for, the first is
made active when `max_agents` is -1 (so there is one agent more than none), and none when it is -2. -/
theorem C110_negative_max_agents :
    let act (m : Int) := match (Net.init (twoNet (.fin m)) (fun _ => true) true (fun _ => [1])).initialise
        (twoNet (.fin m)) (fun l _ => l) (.queues [0, 1]) with
      | .ok n => some ((n.qs 0).active, (n.qs 1).active, n.numAgents 0, n.numAgents 1)
      | .error _ => none
    act 2 = some (true, true, 1, 1) ∧ act 1 = some (true, false, 1, 0) ∧ act 0 = some (false, false, 0, 0) ∧
    act (-1) = some (true, false, 1, 0) ∧ act (-2) = some (false, false, 0, 0) := by
  decide +kernel

end Verif.NetSpec
