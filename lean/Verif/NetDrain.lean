import Verif.Props.Net2
import Verif.NetProj
import Mathlib.Algebra.BigOperators.Group.Finset.Basic
import Mathlib.Algebra.Order.BigOperators.Group.Finset
import Mathlib.Tactic.Linarith

/-!
# Networks without cycles run empty (specification and proof support)

A potential that every arrival and every move lowers, and an argument that agents are not blocked for ever.
-/

set_option linter.unusedSectionVars false
set_option linter.unusedSimpArgs false
set_option linter.unusedVariables false

namespace Verif

variable {T R : Type*} [LinearOrder T] [OrderTop T] [Zero T] [LinearOrder R] [Add R]

/-! ## Scheduled agents arrive at finite times -/

theorem ExtSpec.fin {c : QCfg T} {s s' : QS T} {t : T} {rest : List (Slot T)} (h : ExtSpec c s s' t rest)
    (hr : ∀ a ∈ agents rest, a.time < ⊤) : ∀ a ∈ agents s'.arrivals, a.time < ⊤ := by
  obtain ⟨ext, h1, h2, -, -⟩ := h.ext
  intro a ha
  generalize s'.nextCt = ν at h1
  generalize s'.active = act at h1
  generalize s'.arrCalls = calls at h1
  rcases List.mem_append.mp (h2.mem_iff.mp ha) with ha | ha
  · cases h1 with
    | inactive => simp at ha
    | early => simp at ha
    | off => simp at ha
    | new _ _ hlt =>
      simp only [List.mem_singleton] at ha
      subst ha
      exact hlt.trans_le le_top
  · exact hr a ha

theorem Reach.finArr {c : QCfg T} {b : Bool} {P : QS T → QOp T → Prop} (hk : Simple c)
    (hP : ∀ s a, P s (.handover a) → a.time < ⊤) {s : QS T} (h : Reach c b P s) :
    ∀ a ∈ agents s.arrivals, a.time < ⊤ := by
  refine h.induct (P := fun s => ∀ a ∈ agents s.arrivals, a.time < ⊤) hk (by simp [QS.init, agents])
    fun s s' op hb hi hp ho => ?_
  cases ho with
  | ev s' r _ hev =>
    cases hev with
    | idle _ _ e => rw [e]; exact hi
    | dep a _ e _ => rw [e.arrivals]; exact hi
    | arr a rest _ _ _ e _ => exact e.ext.fin fun x hx => hi x (e.perm.mem_iff.mpr (List.mem_cons_of_mem _ hx))
    | block a rest _ _ _ _ e _ => exact e.ext.fin fun x hx => hi x (e.perm.mem_iff.mpr (List.mem_cons_of_mem _ hx))
  | already => exact hi
  | act arr ext ν act calls _ h1 h2 h3 =>
    have hext : ∀ a ∈ ext, a.time < ⊤ := by
      intro a ha
      cases h1 with
      | early => simp at ha
      | off => simp at ha
      | new _ hlt =>
        simp only [List.mem_singleton] at ha
        rw [ha]
        exact hlt.trans_le le_top
    intro a ha
    rcases List.mem_append.mp (h3.mem_iff.mp ha) with ha | ha
    · exact hext a ha
    · exact hi a ha
  | inact => exact hi
  | srv n s' r h1 => cases h1 <;> exact hi
  | delay t kb s' h1 => cases h1 <;> exact hi
  | collect => exact hi
  | noteFull => exact hi
  | noteOpen => exact hi
  | clearData => exact hi
  | clear => rw [clear_simple c s hk]; simp [agents]
  | handover a arr h1 h2 h3 =>
    intro x hx
    rcases List.mem_cons.mp (h2.mem_iff.mp hx) with rfl | hx
    · exact hP s x hp
    · exact hi x hx

theorem NetReach.finArr {N : NetCfg T R} (hN : N.Ok) {b : Nat → Bool} {n : Net T R} (h : NetReach N b n) {k : Nat}
    (hk : k < N.nE) : ∀ a ∈ agents (n.qs k).arrivals, a.time < ⊤ := by
  rcases (h.inv hN).good k hk with ⟨h1, -⟩ | ⟨-, h2⟩
  · exact (h.hist.queue hN.okA hk h1.ne_null).finArr h1 fun s a h => h.2.1
  · obtain ⟨-, -, -, h4, -, -⟩ := h2
    rw [h4]; simp [agents]

/-! ## The potential -/

/-- How many outside arrivals a queue may still create. -/
def room (c : QCfg T) (s : QS T) : Nat :=
  if s.active then match c.activeCap with
    | .fin m => max 1 (m - s.oArrivals).toNat
    | .inf => 0
  else 0

/-- The potential of the agents at a queue from which at most `r` more visits are possible. -/
def weight (c : QCfg T) (r : Nat) (s : QS T) : Nat :=
  (2 * r + 1) * (agents s.arrivals).length + 2 * r * (s.queue.length + (agents s.departures).length) +
    (2 * r + 2) * room c s

def Capped (c : QCfg T) (s : QS T) : Prop := s.active = true → ∃ m, c.activeCap = .fin m

theorem ExtSpec.room {c : QCfg T} {s s' : QS T} {t : T} {rest : List (Slot T)} (h : ExtSpec c s s' t rest)
    (hc : Capped c s) : room c s' + (agents s'.arrivals).length ≤ room c s + (agents rest).length ∧
      (agents rest).length ≤ (agents s'.arrivals).length ∧ Capped c s' := by
  obtain ⟨ext, h1, h2, h3, -⟩ := h.ext
  have hlen := h2.length_eq
  rw [List.length_append] at hlen
  generalize hν : s'.nextCt = ν at h1
  generalize hact : s'.active = act at h1
  generalize hcalls : s'.arrCalls = calls at h1
  refine (fun (h : _ ∧ Capped c s') => ⟨h.1, by omega, h.2⟩) ?_
  unfold Verif.room Capped
  rw [hact]
  cases h1 with
  | inactive => simp at hlen; simp [hlen]
  | early hs =>
    obtain ⟨m, hm⟩ := hc hs
    simp at hlen h3
    simp [hs, hm, h3, hlen]
  | off hs => simp at hlen; simp [hlen]
  | new hs =>
    obtain ⟨m, hm⟩ := hc hs
    simp only [List.length_singleton] at hlen h3
    rw [hs, hm, h3, hlen]
    refine ⟨?_, fun _ => ⟨m, rfl⟩⟩
    cases hl : (Cap.fin m).lt ((s.oArrivals + 1 : Nat) : Int) with
    | true =>
      simp only [Cap.lt, decide_eq_true_eq] at hl
      simp only [if_true]; omega
    | false => simp only [if_true, Bool.false_eq_true, if_false]; omega

theorem weight_inactive {c : QCfg T} (r : Nat) (f : Bool) (s : QS T) :
    weight c r (if f then setInactive s else s) ≤ weight c r s := by
  cases f with
  | false => exact le_rfl
  | true =>
    simp only [if_true, weight, setInactive, room, Bool.false_eq_true, if_false, Nat.mul_zero, Nat.add_zero]
    exact Nat.le_add_right _ _

theorem Capped.inactive {c : QCfg T} {s : QS T} (h : Capped c s) (f : Bool) :
    Capped c (if f then setInactive s else s) := by
  cases f with
  | false => exact h
  | true => intro h'; simp [setInactive] at h'

theorem ArrEff.weight {c : QCfg T} {s s' : QS T} (h : ArrEff c s s') (hlt : headTime s.arrivals < ⊤) (hc : Capped c s)
    (r : Nat) : weight c r s' < weight c r s ∧ Capped c s' := by
  cases h.out with
  | idle e => rw [e] at hlt; exact absurd hlt (lt_irrefl _)
  | arr a rest _ _ _ e _ =>
    obtain ⟨g1, g0, g2⟩ := e.ext.room hc
    refine ⟨?_, g2⟩
    have hp := e.perm.length_eq
    have hq : s'.queue.length + (agents s'.departures).length = s.queue.length + (agents s.departures).length + 1 := by
      rcases e.served with ⟨-, e2, -, e3, -, -⟩ | ⟨-, e2, -, e3, -, -⟩
      · rw [e2, e3.length_eq]; simp; omega
      · rw [e2, e3]; simp; omega
    simp only [List.length_cons] at hp
    unfold Verif.weight
    rw [hq, hp]
    have := Nat.mul_le_mul_left (2 * r + 1) g1
    nlinarith
  | block a rest _ _ _ _ e _ =>
    obtain ⟨g1, g0, g2⟩ := e.ext.room hc
    refine ⟨?_, g2⟩
    have hp := e.perm.length_eq
    simp only [List.length_cons] at hp
    unfold Verif.weight
    rw [e.queue, e.departures, hp]
    have := Nat.mul_le_mul_left (2 * r + 1) g1
    nlinarith

theorem DepEff.weight {c : QCfg T} {s s' : QS T} {a : Agent T} (h : DepEff c s s' a) (r : Nat) :
    weight c r s' + 2 * r = weight c r s ∧ (Capped c s → Capped c s') := by
  have hs := h.spec
  have hq : s'.queue.length + (agents s'.departures).length + 1 = s.queue.length + (agents s.departures).length := by
    obtain ⟨deps, g1, -, g3⟩ := hs.served
    rcases g3 with ⟨b', rest, e1, -, e2, -, e4, -, -⟩ | ⟨-, e1, -, e3, -, -⟩
    · rw [e1, e2, e4.length_eq, g1.length_eq]; simp; omega
    · rw [e1, e3, g1.length_eq]; simp; omega
  constructor
  · unfold Verif.weight Verif.room
    rw [hs.arrivals, hs.active, hs.oArrivals, ← hq]
    ring
  · intro hc; unfold Capped; rw [hs.active]; exact hc

theorem RecvEff.weight {c : QCfg T} {s s' : QS T} {a : Agent T} {off : QS T → Bool} (h : RecvEff c s s' a off)
    (hk : Simple c) (hb : QBase s)
    (hlt : a.time < ⊤) (hc : Capped c s) (r : Nat) : weight c r s' ≤ weight c r s + 2 * r ∧ Capped c s' := by
  obtain ⟨m, m1, m2, m3, m4, m5, m6, m7, m8, m9, m10, m11, m12, m13⟩ := h.mid
  have hcm : Capped c m := by unfold Capped; rw [m3]; exact hc
  have hw : Verif.weight c r m = Verif.weight c r s + (2 * r + 1) := by
    unfold Verif.weight Verif.room
    rw [m3, m4, m8.length_eq, m9, m10, List.length_cons]
    ring
  have hh : headTime (if off m then setInactive m else m).arrivals < ⊤ := by
    rw [(maybeInactive_same (off m) m).1]
    obtain ⟨arr, -, -, h3, h4⟩ := handover_spec c s a hk.ne_null hb.okA hb.time
    rw [h4] at m1
    simp only [Except.ok.injEq] at m1
    rw [← m1]
    show headTime arr < ⊤
    rw [h3]
    exact (min_le_left _ _).trans_lt hlt
  obtain ⟨g1, g2⟩ := m13.weight hh (hcm.inactive _) r
  have := weight_inactive (c := c) r (off m) m
  exact ⟨by omega, g2⟩

/-- The potential of a network. -/
def netWeight (N : NetCfg T R) (ρ : Nat → Nat) (qs : Nat → QS T) : Nat :=
  ∑ k ∈ Finset.range N.nE, weight (N.qc k) (ρ k + 1) (qs k)

theorem netWeight_update {N : NetCfg T R} {ρ : Nat → Nat} {qs : Nat → QS T} {k : Nat} (hk : k < N.nE) (s : QS T) :
    netWeight N ρ (Function.update qs k s) + weight (N.qc k) (ρ k + 1) (qs k) =
      netWeight N ρ qs + weight (N.qc k) (ρ k + 1) s := by
  unfold netWeight
  have hm : k ∈ Finset.range N.nE := Finset.mem_range.mpr hk
  rw [← Finset.add_sum_erase _ _ hm, ← Finset.add_sum_erase (a := k) _ (fun k => weight (N.qc k) (ρ k + 1) (qs k)) hm]
  simp only [Function.update_self]
  have : ∑ x ∈ (Finset.range N.nE).erase k, weight (N.qc x) (ρ x + 1) (Function.update qs k s x) =
      ∑ x ∈ (Finset.range N.nE).erase k, weight (N.qc x) (ρ x + 1) (qs x) := by
    refine Finset.sum_congr rfl fun x hx => ?_
    rw [Function.update_of_ne (Finset.ne_of_mem_erase hx)]
  rw [this]
  ring

/-- The edges between queues other than NullQueues have no cycle: `ρ` decreases along them. -/
def Acyclic (N : NetCfg T R) (ρ : Nat → Nat) : Prop :=
  ∀ k < N.nE, Simple (N.qc k) → ∀ e ∈ N.outEdges (N.qc k).edge.tgt, Simple (N.qc e) → ρ e < ρ k

/-- Repeated services take an agent beyond every finite time. -/
def Progress (c : QCfg T) : Prop :=
  ∀ B < ⊤, ∃ f : T → Nat, ∀ i t, t < ⊤ → c.serviceF i t ≤ B → f (c.serviceF i t) < f t

/-- The event of queue `k` finds its agent blocked by queue `e` and postpones it beyond the next event of `e`, or serves
it again. -/
structure BlockAt (N : NetCfg T R) (k e : Nat) (n n' : Net T R) : Prop where
  lt : k < N.nE
  simple : Simple (N.qc k)
  out : e ∈ N.outEdges (N.qc k).edge.tgt
  first : ∀ j < N.nE, (n.qs k).time ≤ (n.qs j).time
  other : ∀ j ≠ k, (n'.qs j).time = (n.qs j).time ∧ (n'.qs j).departures = (n.qs j).departures
  fin : (n.qs k).time < ⊤ ∧ (n.qs e).time < ⊤
  deps : ∃ a a' rest, (agents (n.qs k).departures).Perm (a :: rest) ∧ a.time = (n.qs k).time ∧
    (agents (n'.qs k).departures).Perm (a' :: rest) ∧
    ((n.qs e).time < a'.time ∨ (Progress (N.qc k) ∧ ∃ i, a'.time = (N.qc k).serviceF i a.time))

/-- Nothing happens, or an agent is blocked. -/
def Pause (N : NetCfg T R) (n n' : Net T R) : Prop :=
  (n'.qs = n.qs ∧ n'.heap.size < n.heap.size) ∨ ∃ k e, BlockAt N k e n n'

def CappedNet (N : NetCfg T R) (n : Net T R) : Prop := ∀ k < N.nE, Capped (N.qc k) (n.qs k)

theorem StepOut.drain {N : NetCfg T R} (hN : N.Ok) (hF : N.FinSvc) (hjit : ∀ i t, t < ⊤ → t < N.jit i t) {ρ : Nat → Nat}
    (hρ : Acyclic N ρ) {b : Nat → Bool} {n n' : Net T R} (hi : NetInv N b n)
    (hb : n.bas = false → ∀ k < N.nE, Simple (N.qc k) → Progress (N.qc k)) (hc : CappedNet N n)
    (hev : ∃ k < N.nE, (n.qs k).time < ⊤) (h : StepOut N n n') :
    CappedNet N n' ∧ ((Pause N n n' ∧ netWeight N ρ n'.qs ≤ netWeight N ρ n.qs) ∨
      netWeight N ρ n'.qs < netWeight N ρ n.qs) := by
  have hne := NetSpec.nonempty_of_event hi hev
  cases h with
  | empty h0 h1 => exact absurd h0 hne
  | idle k x hp h1 h2 h3 h4 h5 h6 h7 =>
    have hq : n'.qs = n.qs := by rw [h7]
    refine ⟨by unfold CappedNet; rw [hq]; exact hc, .inl ⟨.inl ⟨hq, ?_⟩, by rw [hq]⟩⟩
    rw [h7]; exact NetSpec.pop_shrinks hi hne h6
  | arrive k s' h1 h2 h3 h4 h5 h6 h7 h8 h9 h10 =>
    have hlt : headTime (n.qs k).arrivals < ⊤ := by
      by_contra hc
      rw [nextEventDescription, if_neg h3.ne_null, if_neg hc] at h6
      split at h6 <;> exact absurd h6 (by decide)
    have hm := maybeInactive_same ((n.qs k).active && n.maxed N) (n.qs k)
    obtain ⟨g1, g2⟩ := h7.weight (by rw [hm.1]; exact hlt) ((hc k h1).inactive _) (ρ k + 1)
    have g3 := weight_inactive (c := N.qc k) (ρ k + 1) ((n.qs k).active && n.maxed N) (n.qs k)
    refine ⟨fun j hj => ?_, .inr ?_⟩
    · rw [h8]
      by_cases hjk : j = k
      · subst hjk; rw [Function.update_self]; exact g2
      · rw [Function.update_of_ne hjk]; exact hc j hj
    · rw [h8]
      have := netWeight_update (ρ := ρ) (qs := n.qs) h1 s'
      omega
  | block k e a s1 d h1 h2 h3 h4 h5 h6 h7 h8 h9 h10 h11 h12 h13 h14 h15 =>
    obtain ⟨e1, d1, q1, q2⟩ := destination_ok hN hi.probs h1 h5 a
    rw [h9] at q1
    simp only [Except.ok.injEq, Prod.mk.injEq] at q1
    obtain ⟨rfl, rfl⟩ := q1
    obtain ⟨s1e, s2e, s3e, s4e, s5e, s6e, s7e, s8e, s9e, -⟩ := h12.same
    obtain ⟨rest, d1', d2'⟩ := h12.deps
    have hw1 : weight (N.qc k) (ρ k + 1) s1 = weight (N.qc k) (ρ k + 1) (n.qs k) := by
      unfold weight room
      rw [s1e, s2e, s6e, s9e, d1'.length_eq, d2'.length_eq]
      rfl
    have hse : Simple (N.qc e) := .inr h10
    have hfin : (n.qs e).time < ⊤ ∧ headTime (n.qs e).departures < ⊤ ∧ (n.qs e).time ≤ headTime (n.qs e).departures := by
      rcases hi.good e h3 with ⟨-, hre⟩ | ⟨hk', -⟩
      · have hcap : ((n.qs e).numServers.add (N.qc e).buffer).lt (n.qs e).numSystem = false := by
          rw [atCapacity, h10] at h11; simpa using h11
        have hpos := full_pos hF h3 hse hre hcap
        have hbusy := busy hF h3 hse hre hpos
        have hbe := hre.base hse
        have hfin := hbe.okD.headTime_lt hbusy (hi.findep hF e h3)
        have hle : (n.qs e).time ≤ headTime (n.qs e).departures := by rw [hbe.time, nextTime]; exact min_le_right _ _
        exact ⟨hle.trans_lt hfin, hfin, hle⟩
      · rw [h10] at hk'; exact absurd hk' (by decide)
    refine ⟨fun j hj => ?_, .inl ⟨.inr ⟨k, e, h1, h5, q2, h7, fun j hj => ?_, ⟨h6, hfin.1⟩, ?_⟩, ?_⟩⟩
    · rw [h13]
      by_cases hjk : j = k
      · subst hjk; rw [Function.update_self]; unfold Capped; rw [s6e]; exact hc j hj
      · rw [Function.update_of_ne hjk]
        by_cases hje : j = e
        · subst hje; rw [Function.update_self]; exact hc j hj
        · rw [Function.update_of_ne hje]; exact hc j hj
    · rw [h13, Function.update_of_ne hj]
      by_cases hje : j = e
      · subst hje; rw [Function.update_self]; exact ⟨rfl, rfl⟩
      · rw [Function.update_of_ne hje]; exact ⟨rfl, rfl⟩
    · rcases desc_cases (hi.good k h1) with ⟨g1, -⟩ | ⟨g1, -⟩ | ⟨g1, g2, g3, g4, g5, g6⟩
      · rw [g1] at h8; exact absurd h8 (by decide)
      · rw [g1] at h8; exact absurd h8 (by decide)
      have hq : n'.qs k = s1 := by rw [h13, Function.update_self]
      rw [← hq] at d2'
      refine ⟨a, _, rest, d1', ?_, d2', ?_⟩
      · rw [g5]
        have := h12.head
        cases hd : (n.qs k).departures with
        | nil => rw [hd] at this; simp at this
        | cons y l => rw [hd] at this; simp at this; subst this; rfl
      · cases hbas : n.bas with
        | true =>
          left
          simp only [if_true, Option.getD_some]
          exact hfin.2.2.trans_lt (hjit _ _ hfin.2.1)
        | false =>
          right
          exact ⟨hb hbas k h1 h5, (n.qs k).svcCalls, by simp⟩
    · rw [h13]
      have w1 := netWeight_update (ρ := ρ) (qs := Function.update n.qs e { n.qs e with numBlocked := (n.qs e).numBlocked + 1 }) h1 s1
      have w2 := netWeight_update (ρ := ρ) (qs := n.qs) h3 { n.qs e with numBlocked := (n.qs e).numBlocked + 1 }
      rw [Function.update_of_ne h4] at w1
      have w3 : weight (N.qc e) (ρ e + 1) { n.qs e with numBlocked := (n.qs e).numBlocked + 1 } =
        weight (N.qc e) (ρ e + 1) (n.qs e) := rfl
      omega
  | move k e a s1 s2 d h1 h2 h3 h4 h5 h6 h7 h8 h9 h10 h11 h12 h13 h14 =>
    obtain ⟨e1, d1, q1, q2⟩ := destination_ok hN hi.probs h1 h4 a
    rw [h8] at q1
    simp only [Except.ok.injEq, Prod.mk.injEq] at q1
    obtain ⟨rfl, rfl⟩ := q1
    obtain ⟨w1, c1⟩ := h10.weight (ρ k + 1)
    have u1 := netWeight_update (ρ := ρ) (qs := n.qs) h1 s1
    have u2 := netWeight_update (ρ := ρ) (qs := Function.update n.qs k s1) h3 s2
    have hc1 : ∀ j < N.nE, Capped (N.qc j) (Function.update n.qs k s1 j) := by
      intro j hj
      by_cases hjk : j = k
      · subst hjk; rw [Function.update_self]; exact c1 (hc j hj)
      · rw [Function.update_of_ne hjk]; exact hc j hj
    have fin : ∀ w, weight (N.qc e) (ρ e + 1) s2 ≤ weight (N.qc e) (ρ e + 1) (Function.update n.qs k s1 e) + w →
        w < 2 * (ρ k + 1) → Capped (N.qc e) s2 → CappedNet N n' ∧
        ((Pause N n n' ∧ netWeight N ρ n'.qs ≤ netWeight N ρ n.qs) ∨ netWeight N ρ n'.qs < netWeight N ρ n.qs) := by
      intro w g1 g2 g3
      refine ⟨fun j hj => ?_, .inr ?_⟩
      · rw [h12]
        by_cases hje : j = e
        · subst hje; rw [Function.update_self]; exact g3
        · rw [Function.update_of_ne hje]; exact hc1 j hj
      · rw [h12]; omega
    cases h11 with
    | null m g1 g2 g3 g4 g5 =>
      have hke : e ≠ k := by rintro rfl; exact h4.ne_null g1
      have hm : weight (N.qc e) (ρ e + 1) m = weight (N.qc e) (ρ e + 1) (Function.update n.qs k s1 e) ∧
          m.active = (Function.update n.qs k s1 e).active := by
        unfold addArrivalAgent at g2
        rw [if_pos g1] at g2
        simp only [Except.ok.injEq] at g2
        rw [← g2]
        split <;> exact ⟨rfl, rfl⟩
      refine fin 0 ?_ (by omega) ?_
      · rw [g5, ← hm.1]; exact weight_inactive _ _ _
      · rw [g5]; exact Capped.inactive (by unfold Capped; rw [hm.2]; exact hc1 e h3) _
    | queue g1 g2 =>
      have hlt := hρ k h1 h4 e q2 g1
      have hke : e ≠ k := by rintro rfl; exact lt_irrefl _ hlt
      have hbe : QBase (Function.update n.qs k s1 e) := by
        rw [Function.update_of_ne hke]; exact (hi.good e h3).base
      obtain ⟨k1, k2⟩ := g2.weight g1 hbe (by rw [h10.time]; exact h5) (hc1 e h3) (ρ e + 1)
      exact fin _ k1 (by omega) k2

/-! ## Agents are not blocked for ever -/

theorem eventually_const (f : Nat → Nat) : ∀ v I, f I = v → (∀ i ≥ I, f (i + 1) ≤ f i) →
    ∃ J ≥ I, ∀ i ≥ J, f (i + 1) = f i := by
  intro v
  induction v using Nat.strong_induction_on with
  | _ v ih =>
    intro I hv h
    have hmono : ∀ d, f (I + d) ≤ f I := by
      intro d
      induction d with
      | zero => exact le_rfl
      | succ d ihd => exact (h (I + d) (by omega)).trans ihd
    by_cases hc : ∀ i ≥ I, f (i + 1) = f i
    · exact ⟨I, le_rfl, hc⟩
    · push Not at hc
      obtain ⟨i, hi, hne⟩ := hc
      have h1 := h i hi
      have h2 := hmono (i - I)
      rw [show I + (i - I) = i by omega] at h2
      obtain ⟨J, hJ, hJ'⟩ := ih (f (i + 1)) (by omega) (i + 1) rfl fun j hj => h j (by omega)
      exact ⟨J, by omega, hJ'⟩

section
variable {N : NetCfg T R} (hN : N.Ok) {ρ : Nat → Nat} (hρ : Acyclic N ρ) {x : Nat → Net T R} {I0 : Nat}
  (hx : ∀ i ≥ I0, Pause N (x i) (x (i + 1)))
include hN hρ hx

open Classical in
theorem blocks_end : ∀ r k, k < N.nE → ρ k < r → ∃ I ≥ I0, ∀ i ≥ I, ∀ e, ¬ BlockAt N k e (x i) (x (i + 1)) := by
  intro r
  induction r with
  | zero => intro k _ h; omega
  | succ r ih =>
    intro k hk hr
    by_cases hs : Simple (N.qc k)
    swap
    · exact ⟨I0, le_rfl, fun i _ e h => hs h.simple⟩
    -- the queues that agents at `k` go to are not blocked any more
    have hall : ∀ l : List Nat, (∀ e ∈ l, e ∈ N.outEdges (N.qc k).edge.tgt) →
        ∃ I ≥ I0, ∀ i ≥ I, ∀ e ∈ l, ∀ e', ¬ BlockAt N e e' (x i) (x (i + 1)) := by
      intro l
      induction l with
      | nil => intro _; exact ⟨I0, le_rfl, by simp⟩
      | cons e l ihl =>
        intro hl
        obtain ⟨I, hI, h1⟩ := ihl fun e he => hl e (List.mem_cons_of_mem _ he)
        have he := hl e List.mem_cons_self
        obtain ⟨J, hJ, h2⟩ : ∃ J ≥ I0, ∀ i ≥ J, ∀ e', ¬ BlockAt N e e' (x i) (x (i + 1)) := by
          by_cases hse : Simple (N.qc e)
          · have := hρ k hk hs e he hse
            exact ih e (hN.outLt k hk hs e he) (by omega)
          · exact ⟨I0, le_rfl, fun i _ e h => hse h.simple⟩
        refine ⟨max I J, by omega, fun i hi e1 he1 => ?_⟩
        rcases List.mem_cons.mp he1 with rfl | he1
        · exact h2 i (by omega)
        · exact h1 i (by omega) e1 he1
    obtain ⟨I, hI, h1⟩ := hall _ fun e he => he
    -- so their next events stay where they are
    have hτ : ∀ e ∈ N.outEdges (N.qc k).edge.tgt, ∀ d, ((x (I + d)).qs e).time = ((x I).qs e).time := by
      intro e he d
      induction d with
      | zero => rfl
      | succ d ihd =>
        rw [← ihd]
        show ((x (I + d + 1)).qs e).time = _
        rcases hx (I + d) (by omega) with ⟨h, -⟩ | ⟨k', e', h⟩
        · rw [h]
        · refine (h.other e ?_).1
          rintro rfl
          exact h1 (I + d) (by omega) e he e' h
    obtain ⟨B, hB1, hB2⟩ : ∃ B : T, (∀ e ∈ N.outEdges (N.qc k).edge.tgt, B ≤ ((x I).qs e).time) ∧
        ∀ t : T, (∀ e ∈ N.outEdges (N.qc k).edge.tgt, t ≤ ((x I).qs e).time) → t ≤ B := by
      generalize N.outEdges (N.qc k).edge.tgt = l
      induction l with
      | nil => exact ⟨⊤, by simp, fun t _ => le_top⟩
      | cons e l ihl =>
        obtain ⟨B, b1, b2⟩ := ihl
        refine ⟨min ((x I).qs e).time B, fun e' he' => ?_, fun t ht => ?_⟩
        · rcases List.mem_cons.mp he' with rfl | he'
          · exact min_le_left _ _
          · exact (min_le_right _ _).trans (b1 e' he')
        · exact le_min (ht e List.mem_cons_self) (b2 t fun e' he' => ht e' (List.mem_cons_of_mem _ he'))
    obtain ⟨φ, hφ⟩ : ∃ φ : T → Nat, B < ⊤ → Progress (N.qc k) →
        ∀ i t, t < ⊤ → (N.qc k).serviceF i t ≤ B → φ ((N.qc k).serviceF i t) < φ t := by
      by_cases h : B < ⊤ ∧ Progress (N.qc k)
      · obtain ⟨φ, hφ⟩ := h.2 B h.1
        exact ⟨φ, fun _ _ => hφ⟩
      · exact ⟨fun _ => 0, fun h1 h2 => absurd ⟨h1, h2⟩ h⟩
    let g : Agent T → Nat := fun a => if a.time ≤ B then φ a.time + 1 else 0
    let f : Nat → Nat := fun i => ((agents ((x i).qs k).departures).map g).sum
    have hdrop : ∀ i ≥ I, ∀ e, BlockAt N k e (x i) (x (i + 1)) → f (i + 1) < f i := by
      intro i hi e h
      obtain ⟨a, a', rest, g1, g2, g3, g4⟩ := h.deps
      have e1 := hτ e h.out (i - I)
      rw [show I + (i - I) = i by omega] at e1
      have hBt : B < ⊤ := (hB1 e h.out).trans_lt (by rw [← e1]; exact h.fin.2)
      have ha : a.time ≤ B := by
        refine hB2 _ fun e2 he2 => ?_
        have e3 := hτ e2 he2 (i - I)
        rw [show I + (i - I) = i by omega] at e3
        rw [g2, ← e3]
        exact h.first e2 (hN.outLt k hk hs e2 he2)
      have hlt : g a' < g a := by
        show (if a'.time ≤ B then φ a'.time + 1 else 0) < (if a.time ≤ B then φ a.time + 1 else 0)
        rw [if_pos ha]
        split
        · rename_i ha'
          rcases g4 with g4 | ⟨g4, j, g5⟩
          · rw [e1] at g4
            exact absurd (hB1 e h.out) (not_le.mpr (lt_of_lt_of_le g4 ha'))
          · have := hφ hBt g4 j a.time (ha.trans_lt hBt) (by rw [← g5]; exact ha')
            rw [← g5] at this
            omega
        · omega
      show ((agents ((x (i + 1)).qs k).departures).map g).sum < ((agents ((x i).qs k).departures).map g).sum
      rw [(g1.map g).sum_eq, (g3.map g).sum_eq, List.map_cons, List.map_cons, List.sum_cons, List.sum_cons]
      omega
    have hle : ∀ i ≥ I, f (i + 1) ≤ f i := by
      intro i hi
      rcases hx i (by omega) with ⟨h, -⟩ | ⟨k', e', h⟩
      · show ((agents ((x (i + 1)).qs k).departures).map g).sum ≤ _
        rw [h]
      · by_cases hkk : k = k'
        · subst hkk; exact (hdrop i hi e' h).le
        · show ((agents ((x (i + 1)).qs k).departures).map g).sum ≤ ((agents ((x i).qs k).departures).map g).sum
          rw [(h.other k hkk).2]
    obtain ⟨J, hJ, h2⟩ := eventually_const f _ I rfl hle
    refine ⟨J, by omega, fun i hi e h => ?_⟩
    have := hdrop i (by omega) e h
    rw [h2 i hi] at this
    exact lt_irrefl _ this

/-- A network does not pause for ever. -/
theorem pauses_end : False := by
  have hall : ∀ m ≤ N.nE, ∃ I ≥ I0, ∀ i ≥ I, ∀ k < m, ∀ e, ¬ BlockAt N k e (x i) (x (i + 1)) := by
    intro m
    induction m with
    | zero => intro _; exact ⟨I0, le_rfl, by omega⟩
    | succ m ih =>
      intro hm
      obtain ⟨I, hI, h1⟩ := ih (by omega)
      obtain ⟨J, hJ, h2⟩ := blocks_end hN hρ hx (ρ m + 1) m (by omega) (by omega)
      refine ⟨max I J, by omega, fun i hi k hk => ?_⟩
      rcases Nat.lt_succ_iff_lt_or_eq.mp hk with hk | rfl
      · exact h1 i (by omega) k hk
      · exact h2 i (by omega)
  obtain ⟨I, hI, h1⟩ := hall _ le_rfl
  have hlt : ∀ i ≥ I, (x (i + 1)).heap.size < (x i).heap.size := by
    intro i hi
    rcases hx i (by omega) with ⟨-, h⟩ | ⟨k, e, h⟩
    · exact h
    · exact absurd h (h1 i hi k h.lt e)
  obtain ⟨J, hJ, h2⟩ := eventually_const (fun i => (x i).heap.size) _ I rfl fun i hi => (hlt i hi).le
  have := hlt J hJ
  have := h2 J le_rfl
  omega
end

end Verif
