import Verif.NetLaw
import Verif.Props.NetJourney
import Verif.Props.Net6
import Verif.Props.QueueFree
import Verif.Props.QueueThroughput

/-! # C135: queues in a line -/

set_option linter.unusedSectionVars false
set_option linter.unusedVariables false

namespace Verif.NetSpec

open QueueSpec

variable {T R : Type*} [LinearOrder T] [OrderTop T] [Zero T] [LinearOrder R] [Add R]

/-- The log of queue `k` in a history of the network, with the network's clock at each entry. -/
def netStamps (k : Nat) : Net T R → List (Net T R) → List ((Nat × Nat) × Nat × T)
  | _, [] => []
  | n', n :: L => netStamps k n L ++ ((n'.qs k).log.drop (n.qs k).log.length).map fun p => (p.1, p.2, n'.t)

/-- `simulate`, and `initialize(queues=l)` with no queue of `off` in `l`. -/
def LineOk (off : Nat → Prop) (_ : Net T R) (op : NetOp R) : Prop :=
  op = .step ∨ ∃ pick l, op = .initialise pick (.queues l) ∧ ∀ e ∈ l, ¬ off e

/-- Calls that a queue in a line sees; if `fed` is false, nobody is sent to it. -/
def LineOp (fed : Prop) (s : QS T) (op : QOp T) : Prop :=
  op = .next ∨ op = .setActive ∨ fed ∧ ∃ a, op = .handover a ∧ s.currentT ≤ a.time

theorem LineOp.fcfs {fed : Prop} {s : QS T} {op : QOp T} (h : LineOp fed s op) : FcfsOk s op := by
  rcases h with rfl | rfl | ⟨-, a, rfl, h⟩
  · exact ⟨trivial, by simp, by simp, by simp⟩
  · exact ⟨trivial, by simp, by simp, by simp⟩
  · exact ⟨h, by simp, by simp, by simp⟩

theorem LineOp.alone {s : QS T} {op : QOp T} (h : LineOp False s op) : AloneOk s op := by
  rcases h with rfl | rfl | ⟨h, -⟩
  · exact .inl rfl
  · exact .inr (.inl rfl)
  · exact h.elim

/-- From `s` the queue comes to `s'` and what it adds to its log it adds at time `t`. -/
def Follows (c : QCfg T) (b : Bool) (fed : Prop) (t : T) (s s' : QS T) : Prop :=
  ∃ x, s'.log = s.log ++ x ∧ ∀ l, Traj c b (LineOp fed) s l →
    ∃ l', Traj c b (LineOp fed) s' l' ∧ stamps s' l' = stamps s l ++ x.map fun p => (p.1, p.2, t)

theorem Follows.refl {c : QCfg T} {b : Bool} {fed : Prop} {t : T} {s : QS T} : Follows c b fed t s s :=
  ⟨[], by simp, fun l h => ⟨l, h, by simp⟩⟩

theorem Follows.trans {c : QCfg T} {b : Bool} {fed : Prop} {t : T} {s s1 s2 : QS T} (h1 : Follows c b fed t s s1)
    (h2 : Follows c b fed t s1 s2) : Follows c b fed t s s2 := by
  obtain ⟨x, hx, h1⟩ := h1
  obtain ⟨y, hy, h2⟩ := h2
  refine ⟨x ++ y, by rw [hy, hx, List.append_assoc], fun l h => ?_⟩
  obtain ⟨l1, g1, e1⟩ := h1 l h
  obtain ⟨l2, g2, e2⟩ := h2 l1 g1
  exact ⟨l2, g2, by rw [e2, e1, List.map_append, List.append_assoc]⟩

theorem Follows.one {c : QCfg T} {b : Bool} {fed : Prop} {t : T} {s s' : QS T} (op : QOp T) (hok : LineOp fed s op)
    (hr : op.run c s = .ok s') {x : List ((Nat × Nat) × Nat)} (hx : s'.log = s.log ++ x)
    (ht : x ≠ [] → s'.currentT = t) : Follows c b fed t s s' := by
  refine ⟨x, hx, fun l h => ⟨s :: l, h.step op hok hr, ?_⟩⟩
  simp only [stamps, hx, List.drop_left]
  congr 1
  by_cases h0 : x = []
  · simp [h0]
  · rw [ht h0]

/-- An event of a `QueueServer`. -/
theorem ev_log {c : QCfg T} (hk : c.kind = .server) {s s' : QS T} {r : Option (Agent T)} (h : EvA c s s' r) :
    (r = none ∧ s'.log = s.log) ∨
    (r = none ∧ ∃ a, s'.log = s.log ++ [(a, 0)] ∨ s'.log = s.log ++ [(a, 0), (a, 1)]) ∨
    ∃ a b, r = some a ∧ (s'.log = s.log ++ [(a.id, 2)] ∨ s'.log = s.log ++ [(b, 1), (a.id, 2)]) := by
  cases h with
  | resource h => rw [hk] at h; cases h
  | simple _ h =>
    cases h with
    | idle _ _ h => exact .inl ⟨rfl, by rw [h]⟩
    | dep a _ h _ =>
      obtain ⟨deps, -, -, g⟩ := h.served
      rcases g with ⟨b, rest, -, -, -, -, -, e, -⟩ | ⟨-, -, -, -, e, -⟩
      · exact .inr (.inr ⟨a, b.id, rfl, .inr e⟩)
      · exact .inr (.inr ⟨a, a.id, rfl, .inl e⟩)
    | arr a rest _ _ _ h _ =>
      rcases h.served with ⟨-, -, -, -, e, -⟩ | ⟨-, -, -, -, e, -⟩
      · exact .inr (.inl ⟨rfl, a.id, .inr e⟩)
      · exact .inr (.inl ⟨rfl, a.id, .inl e⟩)
    | block _ _ _ _ h => rw [hk] at h; cases h

theorem ev_prefix {c : QCfg T} (hk : c.kind = .server) {s s' : QS T} {r : Option (Agent T)} (h : EvA c s s' r) :
    ∃ x, s'.log = s.log ++ x := by
  rcases ev_log hk h with ⟨-, h⟩ | ⟨-, a, h | h⟩ | ⟨a, b, -, h | h⟩
  · exact ⟨[], by simp [h]⟩
  all_goals exact ⟨_, h⟩

/-- A `QueueServer` that nobody is kept from leaving. -/
structure Free1 (N : NetCfg T R) (k : Nat) : Prop where
  lt : k < N.nE
  kind : (N.qc k).kind = .server
  open_ : ∀ e ∈ N.outEdges (N.qc k).edge.tgt, (N.qc e).kind = .server ∨ (N.qc e).kind = .null

theorem step_follows {N : NetCfg T R} (hN : N.OkA) (hmax : N.maxAgents = .inf) {b : Nat → Bool} {n n' : Net T R}
    (hi : NetInvA N b n) (h : StepOutA N n n') {j : Nat} (hj : Free1 N j) {fed : Prop}
    (hfed : ¬ fed → ∀ k < N.nE, j ∉ N.outEdges (N.qc k).edge.tgt) :
    Follows (N.qc j) (b j) fed n'.t (n.qs j) (n'.qs j) := by
  have nomax : ∀ n : Net T R, n.maxed N = false := by
    intro n; simp [Net.maxed, hmax]
  cases h with
  | empty h0 h1 => rw [h1]; exact .refl
  | idle k x hp h1 h2 h3 h4 h5 h6 h7 => rw [h7]; exact .refl
  | arrive k s' h1 h2 h3 h4 h5 h6 h7 h8 h9 h10 =>
    rw [h8, h10]
    by_cases hjk : j = k
    · subst hjk
      rw [Function.update_self]
      rw [nomax, Bool.and_false, if_neg (by simp)] at h7
      obtain ⟨x, hx⟩ := ev_prefix hj.kind h7.out
      exact Follows.one .next (.inl rfl) (by simp only [QOp.run, h7.ev]) hx fun _ => h7.cur
    · rw [Function.update_of_ne hjk]; exact .refl
  | block k e a s1 d h1 h2 h3 h4 h5 h6 h7 h8 h9 h10 h11 h12 h13 h14 h15 =>
    rw [h13]
    by_cases hjk : j = k
    · subst hjk
      rcases hj.open_ e (dest_mem hN hi.probs h1 h5 h9) with h | h <;> rw [h] at h10 <;> simp at h10
    · rw [Function.update_of_ne hjk]
      by_cases hje : j = e
      · subst hje
        rw [hj.kind] at h10; simp at h10
      · rw [Function.update_of_ne hje]; exact .refl
  | move k e a a' s1 s2 d h1 h2 h3 h4 h5 h6 h7 h8 h9 h10 h11 h12 h13 h14 =>
    rw [h12, h14]
    have hmid : Follows (N.qc j) (b j) fed (n.qs k).time (n.qs j) (Function.update n.qs k s1 j) := by
      by_cases hjk : j = k
      · subst hjk; rw [Function.update_self]
        obtain ⟨x, hx⟩ := ev_prefix hj.kind h10.out
        exact Follows.one .next (.inl rfl) (by simp only [QOp.run, h10.ev]) hx fun _ => h10.cur
      · rw [Function.update_of_ne hjk]; exact .refl
    by_cases hje : j = e
    · subst hje
      have hf : fed := by
        by_contra hf
        exact hfed hf k h1 (dest_mem hN hi.probs h1 h4 h8)
      rw [Function.update_self]
      cases h11 with
      | null m g1 => rw [hj.kind] at g1; cases g1
      | queue g1 g2 =>
        refine hmid.trans ?_
        have hc : (Function.update n.qs k s1 j).currentT ≤ a'.time := by
          rw [h10.time]
          by_cases hjk : j = k
          · subst hjk; rw [Function.update_self, h10.cur]
          · rw [Function.update_of_ne hjk]
            exact (hi.clk j hj.lt g1).trans (hi.tau k h1)
        obtain ⟨m, m1, m2, m3, m4, m5, m6, m7, m8, m9, m10, m11, m12, m13⟩ := g2.mid
        have hoff : stopAt N n k j s1.numTotal m = false := by simp [stopAt, nomax]
        rw [hoff, if_neg (by simp)] at m13
        obtain ⟨x, hx⟩ := ev_prefix hj.kind m13.out
        exact (Follows.one (.handover a') (.inr (.inr ⟨hf, a', rfl, hc⟩)) (by simp [QOp.run, m1]) (x := [])
          (by simp [m11]) (by simp)).trans
          (Follows.one .next (.inl rfl) (by simp only [QOp.run, m13.ev]) hx fun _ => by rw [g2.cur, h10.time])
    · rw [Function.update_of_ne hje]; exact hmid

theorem activate_same {N : NetCfg T R} {k : Nat} {b : Bool} {fed : Prop} {t : T} : ∀ (l : List Nat) (n n' : Net T R),
    Net.activate N l n = .ok n' → (N.qc k).kind = .server →
    (∀ s s', setActive (N.qc k) s = .ok s' → s'.log = s.log) → Follows (N.qc k) b fed t (n.qs k) (n'.qs k) := by
  intro l
  induction l with
  | nil => intro n n' h _ _; simp only [Net.activate, Except.ok.injEq] at h; rw [h]; exact .refl
  | cons e es ih =>
    intro n n' h hk hlog
    simp only [Net.activate] at h
    split at h
    · simp at h
    · split at h
      · simp at h
      · rename_i s' hs
        refine Follows.trans ?_ (ih _ _ h hk hlog)
        by_cases hke : k = e
        · subst hke
          simp only [Net.setNum, Net.setQ, Function.update_self]
          exact Follows.one .setActive (.inr (.inl rfl)) hs (x := []) (by simp [hlog _ _ hs]) (by simp)
        · simp only [Net.setNum, Net.setQ, Function.update_of_ne hke]; exact .refl

theorem setActive_log {c : QCfg T} {s s' : QS T} (h : setActive c s = .ok s') : s'.log = s.log := by
  unfold setActive addArrival bumpTime at h
  split at h
  · simp only [Except.ok.injEq] at h; rw [← h]
  · split at h
    · simp only [Except.ok.injEq] at h; rw [← h]
    · split at h
      · simp only at h
        split at h
        · simp only [Except.ok.injEq] at h; rw [← h]
        · split at h
          · simp at h
          · simp only [Except.ok.injEq] at h; rw [← h]; split <;> rfl
      · simp only [Except.ok.injEq] at h; rw [← h]

/-- The state after `initialize` is that after activating queues of the list. -/
theorem initialise_activates {N : NetCfg T R} {n n' : Net T R} {pick : List Nat → Nat → List Nat} {l : List Nat}
    (h : n.initialise N pick (.queues l) = .ok n') :
    ∃ l' n1, (∀ e ∈ l', e ∈ l) ∧ Net.activate N l' n = .ok n1 ∧ n'.qs = n1.qs := by
  have hsift : ∀ (l l' : List Nat), Net.sift N l = .ok l' → ∀ e ∈ l', e ∈ l := by
    intro l
    induction l with
    | nil => intro l' h; simp only [Net.sift, Except.ok.injEq] at h; simp [← h]
    | cons x xs ih =>
      intro l' h
      simp only [Net.sift] at h
      split at h
      · simp at h
      · split at h
        · simp at h
        · rename_i l1 h1
          simp only [Except.ok.injEq] at h
          intro e he
          rw [← h] at he
          split at he
          · rcases List.mem_cons.mp he with he | he
            · simp [he]
            · exact List.mem_cons_of_mem _ (ih _ h1 e he)
          · exact List.mem_cons_of_mem _ (ih _ h1 e he)
  have htr : ∀ l : List Nat, ∀ e ∈ Net.truncate N l, e ∈ l := by
    intro l e he
    unfold Net.truncate at he
    split at he
    · exact he
    · split at he
      · exact (pySlice_sub _ _).subset he
      · exact he
  unfold Net.initialise at h
  simp only [Net.selection] at h
  split at h
  · simp at h
  · rename_i l1 h1
    split at h
    · simp at h
    · split at h
      · simp at h
      · rename_i n1 h2
        split at h
        · simp at h
        · simp only [Except.ok.injEq] at h
          subst h
          exact ⟨_, n1, fun e he => hsift _ _ h1 e (htr _ e he), h2, rfl⟩

theorem activate_other {N : NetCfg T R} {k : Nat} : ∀ (l : List Nat) (n n' : Net T R),
    Net.activate N l n = .ok n' → k ∉ l → n'.qs k = n.qs k := by
  intro l
  induction l with
  | nil => intro n n' h _; simp only [Net.activate, Except.ok.injEq] at h; rw [h]
  | cons e es ih =>
    intro n n' h hk
    simp only [List.mem_cons, not_or] at hk
    simp only [Net.activate] at h
    split at h
    · simp at h
    · split at h
      · simp at h
      · rw [ih _ _ h hk.2]
        simp only [Net.setNum, Net.setQ, Function.update_of_ne hk.1]

theorem activate_log {N : NetCfg T R} {k : Nat} : ∀ (l : List Nat) (n n' : Net T R),
    Net.activate N l n = .ok n' → (n'.qs k).log = (n.qs k).log := by
  intro l
  induction l with
  | nil => intro n n' h; simp only [Net.activate, Except.ok.injEq] at h; rw [h]
  | cons e es ih =>
    intro n n' h
    simp only [Net.activate] at h
    split at h
    · simp at h
    · split at h
      · simp at h
      · rename_i s' hs
        rw [ih _ _ h]
        by_cases hke : k = e
        · subst hke
          simp only [Net.setNum, Net.setQ, Function.update_self, setActive_log hs]
        · simp only [Net.setNum, Net.setQ, Function.update_of_ne hke]

/-- The history of a queue in a history of the network, with the same times. -/
theorem NetTraj.line {N : NetCfg T R} (hN : N.OkA) (hmax : N.maxAgents = .inf) {b : Nat → Bool} {off : Nat → Prop}
    {n : Net T R} {L : List (Net T R)} (h : NetTraj N b (LineOk off) n L) {j : Nat} (hj : Free1 N j) {fed : Prop}
    (hfed : ¬ fed → ∀ k < N.nE, j ∉ N.outEdges (N.qc k).edge.tgt) :
    ∃ l, Traj (N.qc j) (b j) (LineOp fed) (n.qs j) l ∧ stamps (n.qs j) l = netStamps j n L := by
  induction h with
  | new bas probs hp => exact ⟨[], .init, rfl⟩
  | @step n n' L op h ha ho hr ih =>
    obtain ⟨l, h1, h2⟩ := ih
    have fin : Follows (N.qc j) (b j) fed n'.t (n.qs j) (n'.qs j) →
        ∃ l, Traj (N.qc j) (b j) (LineOp fed) (n'.qs j) l ∧ stamps (n'.qs j) l = netStamps j n' (n :: L) := by
      rintro ⟨x, hx, hf⟩
      obtain ⟨l', g1, g2⟩ := hf l h1
      exact ⟨l', g1, by rw [g2, h2, netStamps, hx, List.drop_left]⟩
    apply fin
    have hinv := h.hist.reach.invA hN
    rcases ho with rfl | ⟨pick, l, rfl, -⟩
    · rw [NetOp.run, simulate_one] at hr
      split at hr
      · rename_i hin
        rcases step_specA hN hinv hin with ⟨n2, g1, g2, -⟩ | ⟨g1, -⟩
        · rw [g1] at hr; simp only [Except.ok.injEq] at hr; subst hr
          exact step_follows hN hmax hinv g2 hj hfed
        · rw [g1] at hr; simp at hr
      · simp at hr
    · obtain ⟨l', n1, -, g1, g2⟩ := initialise_activates (show n.initialise N pick (.queues l) = .ok n' from hr)
      rw [g2]
      exact activate_same _ _ _ g1 hj.kind fun _ _ => setActive_log

/-! ## From one queue to the next -/

/-- Agents come to `e` from `k` only, and from `k` they go to `e` only. -/
structure Fed (N : NetCfg T R) (k e : Nat) : Prop where
  ne : k ≠ e
  lt : e < N.nE
  kind : (N.qc e).kind = .server
  next : ∀ x ∈ N.outEdges (N.qc k).edge.tgt, x = e
  only : ∀ j < N.nE, e ∈ N.outEdges (N.qc j).edge.tgt → j = k

theorem ev_ids {c : QCfg T} (hk : c.kind = .server) {s s' : QS T} {r : Option (Agent T)} (h : EvA c s s' r) :
    stageIds 2 s'.log = stageIds 2 s.log ++ r.toList.map (·.id) ∧
    (r.isSome → stageIds 0 s'.log = stageIds 0 s.log) := by
  rcases ev_log hk h with ⟨rfl, e⟩ | ⟨rfl, a, e | e⟩ | ⟨a, b, rfl, e | e⟩ <;> rw [e] <;> simp [stageIds]

/-- An arrival at an inactive queue for which one agent is scheduled. -/
theorem arr_inactive {c : QCfg T} (hk : c.kind = .server) {s s' : QS T} (h : EvA c s s' none) (hs : s.active = false)
    {a : Agent T} (ha : agents s.arrivals = [a]) (hlt : headTime s.arrivals < ⊤) :
    s'.active = false ∧ agents s'.arrivals = [] ∧
    stageIds 0 s'.log = stageIds 0 s.log ++ [a.id] := by
  cases h with
  | resource h => rw [hk] at h; cases h
  | simple _ h =>
    cases h with
    | idle h _ _ => rw [h] at hlt; exact absurd hlt (lt_irrefl _)
    | arr a' rest _ _ _ h _ =>
      have hp := h.perm
      rw [ha] at hp
      have hr : agents rest = [] := by
        have := hp.length_eq
        simpa using this
      obtain ⟨ext, e1, e2, e3, -⟩ := h.ext
      rw [hr] at e2
      generalize s'.nextCt = ν at e1
      generalize hα : s'.active = α at e1
      generalize s'.arrCalls = κ at e1
      obtain rfl : a' = a := by
        have := hp.symm.subset (List.mem_cons_self ..)
        simpa using this
      have hc : stageIds 0 s'.log = stageIds 0 s.log ++ [a'.id] := by
        rcases h.served with ⟨-, -, -, -, e, -⟩ | ⟨-, -, -, -, e, -⟩ <;> rw [e] <;> simp [stageIds]
      cases e1 with
      | inactive _ => exact ⟨rfl, List.perm_nil.mp e2, hc⟩
      | early q _ => rw [hs] at q; cases q
      | off q _ _ => rw [hs] at q; cases q
      | new q _ _ => rw [hs] at q; cases q
    | block _ _ _ _ h => rw [hk] at h; cases h

/-- At a queue fed by another every departure from the other has been followed by an arrival, and none is pending. -/
def Flow (k e : Nat) (qs : Nat → QS T) : Prop :=
  (qs e).active = false ∧ agents (qs e).arrivals = [] ∧
  stageIds 0 (qs e).log = stageIds 2 (qs k).log

theorem step_line_flow {N : NetCfg T R} (hN : N.OkA) (hmax : N.maxAgents = .inf) {b : Nat → Bool} {n n' : Net T R}
    (hi : NetInvA N b n) (h : StepOutA N n n') {k e : Nat} (hk : Free1 N k) (hf : Fed N k e) (hn : Flow k e n.qs) :
    Flow k e n'.qs := by
  have nomax : ∀ n : Net T R, n.maxed N = false := by
    intro n; simp [Net.maxed, hmax]
  obtain ⟨f1, f2, f3⟩ := hn
  cases h with
  | empty h0 h1 => rw [h1]; exact ⟨f1, f2, f3⟩
  | idle q x hp h1 h2 h3 h4 h5 h6 h7 => rw [h7]; exact ⟨f1, f2, f3⟩
  | arrive q s' h1 h2 h3 h4 h5 h6 h7 h8 h9 h10 =>
    rw [nomax, Bool.and_false, if_neg (by simp)] at h7
    have hqe : q ≠ e := by
      rintro rfl
      obtain ⟨a, rest, g, -⟩ := h7.core.arr
      rw [f2] at g
      exact absurd g.length_eq (by simp)
    rw [h8]
    unfold Flow
    rw [Function.update_of_ne hqe.symm]
    refine ⟨f1, f2, f3.trans ?_⟩
    by_cases hqk : q = k
    · subst hqk
      rw [Function.update_self, (ev_ids hk.kind h7.out).1]
      simp
    · rw [Function.update_of_ne (Ne.symm hqk)]
  | block q e2 a s1 d h1 h2 h3 h4 h5 h6 h7 h8 h9 h10 h11 h12 h13 h14 h15 =>
    have hqk : q ≠ k := by
      rintro rfl
      rcases hk.open_ e2 (dest_mem hN hi.probs h1 h5 h9) with h | h <;> rw [h] at h10 <;> simp at h10
    have h2k : e2 ≠ k := by rintro rfl; rw [hk.kind] at h10; simp at h10
    have h2e : e2 ≠ e := by rintro rfl; rw [hf.kind] at h10; simp at h10
    rw [h13]
    unfold Flow
    rw [Function.update_of_ne hqk.symm, Function.update_of_ne h2k.symm]
    by_cases hqe : q = e
    · subst hqe
      rw [Function.update_self]
      obtain ⟨g1, -, -, -, -, g2, -, g3, -⟩ := h12.same
      exact ⟨by rw [g2, f1], by rw [g1, f2], by rw [g3, f3]⟩
    · rw [Function.update_of_ne (Ne.symm hqe), Function.update_of_ne h2e.symm]
      exact ⟨f1, f2, f3⟩
  | move q e2 a a' s1 s2 d h1 h2 h3 h4 h5 h6 h7 h8 h9 h10 h11 h12 h13 h14 =>
    have hmem := dest_mem hN hi.probs h1 h4 h8
    have recv : ∀ {x : Nat}, (N.qc x).kind = .server → x = e2 → ∃ m, m.active = (Function.update n.qs q s1 x).active ∧
        (agents m.arrivals).Perm (a' :: agents (Function.update n.qs q s1 x).arrivals) ∧
        m.log = (Function.update n.qs q s1 x).log ∧ ArrEffA (N.qc x) m s2 := by
      rintro x hx rfl
      cases h11 with
      | null m g1 => rw [hx] at g1; cases g1
      | queue g1 g2 =>
        obtain ⟨m, m1, m2, m3, m4, m5, m6, m7, m8, m9, m10, m11, m12, m13⟩ := g2.mid
        have hoff : stopAt N n q x s1.numTotal m = false := by simp [stopAt, nomax]
        rw [hoff, if_neg (by simp)] at m13
        exact ⟨m, m3, m8, m11, m13⟩
    rw [h12]
    by_cases hqk : q = k
    · subst hqk
      obtain rfl := hf.next _ hmem
      obtain ⟨m, m1, m2, m3, m4⟩ := recv hf.kind rfl
      rw [Function.update_of_ne hf.ne.symm] at m1 m2 m3
      rw [f2] at m2
      rw [f1] at m1
      have hm : agents m.arrivals = [a'] := List.perm_singleton.mp m2
      have hlt : headTime m.arrivals < ⊤ := by
        obtain ⟨y, rest, g1, g2, -⟩ := m4.core.arr
        rw [hm] at g1
        have : y = a' := by
          have := g1.symm.subset (List.mem_cons_self ..)
          simpa using this
        rw [← g2, this, h10.time]; exact h5
      obtain ⟨r1, r2, r3⟩ := arr_inactive hf.kind m4.out m1 hm hlt
      unfold Flow
      rw [Function.update_self, Function.update_of_ne hf.ne, Function.update_self]
      refine ⟨r1, r2, ?_⟩
      rw [r3, m3, (ev_ids hk.kind h10.out).1, f3]
      rfl
    · have h2e : e2 ≠ e := by
        rintro rfl
        exact hqk (hf.only q h1 hmem)
      have hk2 : stageIds 2 (Function.update (Function.update n.qs q s1) e2 s2 k).log = stageIds 2 (n.qs k).log := by
        by_cases hx : k = e2
        · obtain ⟨m, m1, m2, m3, m4⟩ := recv hk.kind hx
          rw [← hx, Function.update_self, (ev_ids hk.kind m4.out).1, m3, Function.update_of_ne (Ne.symm hqk)]
          simp
        · rw [Function.update_of_ne hx, Function.update_of_ne (Ne.symm hqk)]
      unfold Flow
      rw [hk2, Function.update_of_ne h2e.symm]
      by_cases hqe : q = e
      · subst hqe
        rw [Function.update_self, (ev_ids hf.kind h10.out).2 rfl]
        have ho := h10.out
        cases ho with
        | resource h => rw [hf.kind] at h; cases h
        | simple _ h =>
          cases h with
          | dep _ _ h _ => exact ⟨by rw [h.active, f1], by rw [h.arrivals, f2], f3⟩
      · rw [Function.update_of_ne (Ne.symm hqe)]
        exact ⟨f1, f2, f3⟩

/-- The agents that come to `e`, and the times, are those that leave `k`. -/
theorem NetTraj.flow {N : NetCfg T R} (hN : N.OkA) (hmax : N.maxAgents = .inf) {b : Nat → Bool} {off : Nat → Prop}
    {n : Net T R} {L : List (Net T R)} (h : NetTraj N b (LineOk off) n L) {k e : Nat} (hk : Free1 N k) (he : Free1 N e)
    (hf : Fed N k e) (ho : off e) :
    Flow k e n.qs ∧ atStage 0 (netStamps e n L) = atStage 2 (netStamps k n L) := by
  induction h with
  | new bas probs hp =>
    exact ⟨⟨rfl, rfl, rfl⟩, rfl⟩
  | @step n n' L op h ha hop hr ih =>
    obtain ⟨i1, i2⟩ := ih
    have hinv := h.hist.reach.invA hN
    have key : Flow k e n'.qs ∧ (∃ x, (n'.qs e).log = (n.qs e).log ++ x) ∧ ∃ x, (n'.qs k).log = (n.qs k).log ++ x := by
      rcases hop with rfl | ⟨pick, l, rfl, hl⟩
      · rw [NetOp.run, simulate_one] at hr
        split at hr
        · rename_i hin
          rcases step_specA hN hinv hin with ⟨n2, g1, g2, -⟩ | ⟨g1, -⟩
          · rw [g1] at hr; simp only [Except.ok.injEq] at hr; subst hr
            obtain ⟨x, hx, -⟩ := step_follows hN hmax hinv g2 he (fed := True) (by simp)
            obtain ⟨y, hy, -⟩ := step_follows hN hmax hinv g2 hk (fed := True) (by simp)
            exact ⟨step_line_flow hN hmax hinv g2 hk hf i1, ⟨x, hx⟩, y, hy⟩
          · rw [g1] at hr; simp at hr
        · simp at hr
      · obtain ⟨l', n1, g0, g1, g2⟩ := initialise_activates (show n.initialise N pick (.queues l) = .ok n' from hr)
        rw [g2]
        have ge : n1.qs e = n.qs e := activate_other _ _ _ g1 fun hx => hl e (g0 e hx) ho
        have hlog := activate_log (k := k) _ _ _ g1
        refine ⟨?_, ⟨[], by rw [ge]; simp⟩, [], by rw [hlog]; simp⟩
        unfold Flow
        rw [ge, hlog]; exact i1
    obtain ⟨k1, ⟨x, hx⟩, y, hy⟩ := key
    refine ⟨k1, ?_⟩
    have hc : stageIds 0 x = stageIds 2 y := by
      have h2 := k1.2.2
      rw [hx, hy, stageIds_append, stageIds_append, i1.2.2] at h2
      exact List.append_cancel_left h2
    have hat : ∀ (σ : Nat) (z : List ((Nat × Nat) × Nat)) (t : T),
        atStage σ (z.map fun p => (p.1, p.2, t)) = (stageIds σ z).map fun id => (id, t) := by
      intro σ z t
      induction z with
      | nil => rfl
      | cons p z ih =>
        by_cases hp : p.2 = σ <;> simp_all [atStage, stageIds]
    simp only [netStamps, hx, hy, List.drop_left, atStage_append, i2, hat, hc]

/-! ## One server -/

/-- When the agents leave one server that serves those who come at the times `a 0`, `a 1`, ... in turn. -/
def passage (svc : ℕ → T → T) (a : ℕ → T) : ℕ → T
  | 0 => svc 0 (a 0)
  | r + 1 => svc (r + 1) (max (a (r + 1)) (passage svc a r))

theorem Traj.left_sorted {c : QCfg T} (hk : Simple c) (hf : Forward c) {b : Bool} {s : QS T} {l : List (QS T)}
    (h : Traj c b FcfsOk s l) : ((atStage 2 (stamps s l)).map Prod.snd).Pairwise (· ≤ ·) := by
  induction h with
  | init => simp [stamps, atStage]
  | @step s s' l op h1 h2 hr ih =>
    have hp := ((Traj.step op h1 h2 hr).fcfsInv hk hf rfl).past
    simp only [stamps, atStage_append, List.map_append]
    have hc : ∀ x ∈ (atStage 2 ((s'.log.drop s.log.length).map fun p => (p.1, p.2, s'.currentT))).map Prod.snd,
        x = s'.currentT := by
      simp only [atStage, List.mem_map, List.mem_filterMap]
      rintro x ⟨p, ⟨q, ⟨r, -, rfl⟩, hq⟩, rfl⟩
      by_cases h : r.2 = 2 <;> simp [h] at hq
      rw [← hq]
    refine List.pairwise_append.mpr ⟨ih, ?_, ?_⟩
    · refine List.pairwise_iff_forall_sublist.mpr fun {x y} hxy => ?_
      rw [hc x (hxy.subset (by simp)), hc y (hxy.subset (by simp))]
    · intro x hx y hy
      rw [hc y hy]
      obtain ⟨p, hp1, rfl⟩ := List.mem_map.mp hx
      exact hp p (by simp only [stamps, atStage_append, List.mem_append]; exact .inl hp1)

/-- At a queue with one server, to which agents come at the times `a`: when the `r`-th service starts and when it ends. -/
theorem Traj.passage {c : QCfg T} (hk : c.kind = .server) (hf : Forward c) (hone : c.servers = .fin 1) {b : Bool} {fed : Prop}
    {s : QS T} {l : List (QS T)} (h : Traj c b (LineOp fed) s l) {a : ℕ → T}
    (ha : ∀ r t, ((atStage 0 (stamps s l)).map Prod.snd)[r]? = some t → t = a r) :
    (∀ r t, ((atStage 1 (stamps s l)).map Prod.snd)[r]? = some t →
      c.serviceF r t = NetSpec.passage c.serviceF a r) ∧
    (∀ r t, ((atStage 2 (stamps s l)).map Prod.snd)[r]? = some t → t = NetSpec.passage c.serviceF a r) ∧
    (atStage 2 (stamps s l)).map Prod.fst <+: (atStage 0 (stamps s l)).map Prod.fst ∧
    (atStage 2 (stamps s l)).map Prod.snd ++ (agents s.departures).map (·.time) =
      ends c.serviceF ((atStage 1 (stamps s l)).map Prod.snd) := by
  have hs : Simple c := .inl hk
  have hT : Traj c b FcfsOk s l := Traj.mono (fun _ _ => LineOp.fcfs) h
  have hin := hT.fcfsInv hs hf rfl
  obtain ⟨hids, hst, -⟩ := C83_start_times hs hf hT
  have len : (atStage 1 (stamps s l)).length ≤ (atStage 0 (stamps s l)).length := by
    have := hin.fcfs.1
    simpa using this
  have start : ∀ r t, ((atStage 1 (stamps s l)).map Prod.snd)[r]? = some t →
      c.serviceF r t = NetSpec.passage c.serviceF a r := by
    intro r
    induction r with
    | zero =>
      intro t ht
      obtain ⟨hi, -⟩ := List.getElem?_eq_some_iff.mp ht
      rw [List.length_map] at hi
      obtain ⟨q, hq⟩ : ∃ q, ((atStage 0 (stamps s l)).map Prod.snd)[0]? = some q :=
        ⟨_, List.getElem?_eq_getElem (by rw [List.length_map]; omega)⟩
      obtain ⟨⟨t1, t2⟩, t3⟩ := hst 0 q t hq ht
      have h2 : t = q := le_antisymm (t3 q le_rfl (by simp [hone, Cap.lt])) t1
      rw [h2, ha 0 q hq]; rfl
    | succ r ih =>
      intro t ht
      obtain ⟨hi, -⟩ := List.getElem?_eq_some_iff.mp ht
      rw [List.length_map] at hi
      obtain ⟨q, hq⟩ : ∃ q, ((atStage 0 (stamps s l)).map Prod.snd)[r + 1]? = some q :=
        ⟨_, List.getElem?_eq_getElem (by rw [List.length_map]; omega)⟩
      obtain ⟨u, hu⟩ : ∃ u, ((atStage 1 (stamps s l)).map Prod.snd)[r]? = some u :=
        ⟨_, List.getElem?_eq_getElem (by rw [List.length_map]; omega)⟩
      rw [C83_lindley hs hf hone hT hq ht hu, ha _ q hq, ih u hu]; rfl
  have hR : Reach c b StaysOne s := (Traj.mono (fun _ _ h => by
    rcases h with rfl | rfl | ⟨-, x, rfl, -⟩ <;> intro n hn <;> cases hn) h).reach
  have hi : OneInv s ∧ QInv s := hR.induct (P := fun s => OneInv s ∧ QInv s) hs
    ⟨⟨hone, by simp [QS.init, inService], by simp [QS.init, inService]⟩, QInv.init c b⟩
    fun _ _ _ hb hi hx ho => ⟨hi.1.step hs hi.2 hx ho, hi.2.step hs hb ho⟩
  have hcl : ClockInv s := hT.reach.clock hs hf fun _ _ h => h.1
  have ids : ∀ k, (atStage k (stamps s l)).map Prod.fst = stageIds k s.log := by
    intro k
    rw [← C83_stamps_log hs hT]
    generalize stamps s l = L
    induction L with
    | nil => rfl
    | cons x L ih =>
      simp only [atStage, stageIds, List.filterMap_cons, List.map_cons, List.filter_cons] at ih ⊢
      by_cases hx : x.2.1 = k
      · simp [hx, ih]
      · simp [hx, ih]
  have hends : ∀ r t, (ends c.serviceF ((atStage 1 (stamps s l)).map Prod.snd))[r]? = some t →
      t = NetSpec.passage c.serviceF a r := by
    intro r t ht
    simp only [ends, List.getElem?_mapIdx, Option.map_eq_some_iff] at ht
    obtain ⟨u, hu, rfl⟩ := ht
    exact start r u hu
  have hmono : Monotone (NetSpec.passage c.serviceF a) := by
    refine monotone_nat_of_le_succ fun r => ?_
    rw [NetSpec.passage]
    exact (le_max_right _ _).trans (hf.2 _ _)
  have hE : (ends c.serviceF ((atStage 1 (stamps s l)).map Prod.snd)).Pairwise (· ≤ ·) := by
    refine List.pairwise_iff_getElem.mpr fun i j hi hj hij => ?_
    rw [hends i _ (List.getElem?_eq_getElem hi), hends j _ (List.getElem?_eq_getElem hj)]
    exact hmono hij.le
  have hD : ((atStage 2 (stamps s l)).map Prod.snd ++ (agents s.departures).map (·.time)).Pairwise (· ≤ ·) := by
    refine List.pairwise_append.mpr ⟨Traj.left_sorted hs hf hT, ?_, ?_⟩
    · have := hi.1.le
      rw [inService] at this
      match hx : agents s.departures, this with
      | [], _ => simp
      | [x], _ => simp
      | _ :: _ :: _, h => simp at h
    · intro x hx y hy
      obtain ⟨p, hp, rfl⟩ := List.mem_map.mp hx
      obtain ⟨q, hq, rfl⟩ := List.mem_map.mp hy
      exact (hin.past p hp).trans (hcl.dep q hq)
  have heq := List.Perm.eq_of_pairwise (fun _ _ _ _ h1 h2 => le_antisymm h1 h2) hD hE (List.perm_append_comm.trans hin.times)
  refine ⟨start, fun r t ht => hends r t ?_, ?_, heq⟩
  swap
  · rw [ids, ids, ← hi.2.fifo, ← hi.1.ord, List.append_assoc]
    exact List.prefix_append _ _
  rw [← heq, List.getElem?_append_left (by obtain ⟨h, -⟩ := List.getElem?_eq_some_iff.mp ht; exact h), ht]

/-! ## The line -/

/-- `q 0`, ..., `q m` is a line of queues with one server each: agents are created at `q 0` only (for all time), and go from
each queue to the next. -/
structure Line (N : NetCfg T R) (q : ℕ → Nat) (m : ℕ) : Prop where
  free : ∀ i ≤ m, Free1 N (q i)
  one : ∀ i ≤ m, (N.qc (q i)).servers = .fin 1
  source : Endless (N.qc (q 0))
  first : ∀ k < N.nE, q 0 ∉ N.outEdges (N.qc k).edge.tgt
  fed : ∀ i < m, Fed N (q i) (q (i + 1))

/-- The queues that are not activated: those of the line, but for the first. -/
def Downstream (q : ℕ → Nat) (m : ℕ) (e : Nat) : Prop := ∃ i < m, e = q (i + 1)

/-- When the agents leave the `i`-th queue of a line. -/
def lineTime (N : NetCfg T R) (q : ℕ → Nat) : ℕ → ℕ → T
  | 0 => passage (N.qc (q 0)).serviceF fun r => drawn (N.qc (q 0)).arrivalF 0 0 (r + 1)
  | i + 1 => passage (N.qc (q (i + 1))).serviceF (lineTime N q i)

/-- When they come to it. -/
def comeTime (N : NetCfg T R) (q : ℕ → Nat) : ℕ → ℕ → T
  | 0 => fun r => drawn (N.qc (q 0)).arrivalF 0 0 (r + 1)
  | i + 1 => lineTime N q i

theorem lineTime_eq (N : NetCfg T R) (q : ℕ → Nat) (i : ℕ) :
    lineTime N q i = passage (N.qc (q i)).serviceF (comeTime N q i) := by
  cases i <;> rfl

/-- C135: in every history of a network with a line of queues, the `r`-th agent that comes to the `i`-th queue, and the
`r`-th that leaves it, is the `r`-th that was created; it comes at `comeTime i r` and leaves at `lineTime i r`. -/
theorem C135_line {N : NetCfg T R} (hN : N.OkA) (hmax : N.maxAgents = .inf) {q : ℕ → Nat} {m : ℕ} (hl : Line N q m)
    {b : Nat → Bool} {n : Net T R} {L : List (Net T R)} (h : NetTraj N b (LineOk (Downstream q m)) n L) {i : ℕ} (hi : i ≤ m) :
    (∀ r p, (atStage 0 (netStamps (q i) n L))[r]? = some p → p = ((q 0, r), comeTime N q i r)) ∧
    ∀ r p, (atStage 2 (netStamps (q i) n L))[r]? = some p → p = ((q 0, r), lineTime N q i r) := by
  have fin : ∀ {i : ℕ} (_ : i ≤ m) {fed : Prop} (_ : ¬ fed → ∀ k < N.nE, q i ∉ N.outEdges (N.qc k).edge.tgt),
      (∀ r p, (atStage 0 (netStamps (q i) n L))[r]? = some p → p = ((q 0, r), comeTime N q i r)) →
      ∀ r p, (atStage 2 (netStamps (q i) n L))[r]? = some p → p = ((q 0, r), lineTime N q i r) := by
    intro i hi fed hfed h0 r p hp
    obtain ⟨l, h1, h2⟩ := NetTraj.line hN hmax h (hl.free i hi) hfed
    obtain ⟨-, g1, g2, -⟩ := Traj.passage (hl.free i hi).kind (hN.fwd _ (hl.free i hi).lt) (hl.one i hi) h1
      (a := comeTime N q i) (by
        intro r t ht
        rw [h2, List.getElem?_map, Option.map_eq_some_iff] at ht
        obtain ⟨p, hp, rfl⟩ := ht
        rw [h0 r p hp])
    rw [h2] at g1 g2
    rw [lineTime_eq]
    refine Prod.ext ?_ (g1 r p.2 (by rw [List.getElem?_map, hp]; rfl))
    obtain ⟨z, hz⟩ := g2
    have h3 : ((atStage 0 (netStamps (q i) n L)).map Prod.fst)[r]? = some p.1 := by
      rw [← hz, List.getElem?_append_left, List.getElem?_map, hp]
      · rfl
      · rw [List.length_map]
        exact (List.getElem?_eq_some_iff.mp hp).1
    rw [List.getElem?_map, Option.map_eq_some_iff] at h3
    obtain ⟨p', hp', e⟩ := h3
    rw [← e, h0 r p' hp']
  induction i with
  | zero =>
    have h0 : ∀ r p, (atStage 0 (netStamps (q 0) n L))[r]? = some p → p = ((q 0, r), comeTime N q 0 r) := by
      obtain ⟨l, h1, h2⟩ := NetTraj.line hN hmax h (hl.free 0 hi) (fed := False) fun _ => hl.first
      have hal := Traj.alone hl.source (Traj.mono (fun _ _ => LineOp.alone) h1)
      intro r p hp
      rw [← h2, hal.made] at hp
      obtain ⟨hi', hp⟩ := List.getElem?_eq_some_iff.mp hp
      rw [← hp]
      simp [comeTime, hN.idx _ (hl.free 0 hi).lt]
    exact ⟨h0, fin hi (fed := False) (fun _ => hl.first) h0⟩
  | succ i ih =>
    obtain ⟨-, i2⟩ := ih (by omega)
    obtain ⟨-, hfl⟩ := NetTraj.flow hN hmax h (hl.free i (by omega)) (hl.free (i + 1) hi) (hl.fed i hi) ⟨i, hi, rfl⟩
    have h0 : ∀ r p, (atStage 0 (netStamps (q (i + 1)) n L))[r]? = some p → p = ((q 0, r), comeTime N q (i + 1) r) := by
      rw [hfl]; exact i2
    exact ⟨h0, fin hi (fed := True) (by simp) h0⟩

/-! ## In the long run -/

section
open Filter Topology MeasureTheory ProbabilityTheory

/-- `passage` for given arrivals and services that take `S`. -/
noncomputable def through (S a : ℕ → ℝ) : ℕ → ℝ
  | 0 => a 0 + S 0
  | r + 1 => max (a (r + 1)) (through S a r) + S (r + 1)

/-- The first arrival, and the times between arrivals. -/
def gaps (a : ℕ → ℝ) : ℕ → ℝ
  | 0 => a 0
  | r + 1 => a (r + 1) - a r

theorem sum_gaps (a : ℕ → ℝ) (n : ℕ) : ∑ j ∈ Finset.range (n + 1), gaps a j = a n := by
  induction n with
  | zero => simp [gaps]
  | succ n ih => rw [Finset.sum_range_succ, ih, gaps]; ring

theorem through_eq (S a : ℕ → ℝ) (n : ℕ) :
    through S a n = ∑ j ∈ Finset.range (n + 1), gaps a j + wait (gaps a) S n + S n := by
  rw [sum_gaps]
  induction n with
  | zero => simp [through, wait]
  | succ n ih =>
    rw [through, ih, wait, gaps, ← max_add_add_left]
    congr 2 <;> ring

theorem through_limit {S a : ℕ → ℝ} {α σ : ℝ} (ha : Tendsto (fun n : ℕ => a n / n) atTop (𝓝 α))
    (hS : Tendsto (fun n : ℕ => (∑ j ∈ Finset.range n, S j) / n) atTop (𝓝 σ)) :
    Tendsto (fun n : ℕ => through S a n / n) atTop (𝓝 (max α σ)) := by
  have hg : Tendsto (fun n : ℕ => (∑ j ∈ Finset.range n, gaps a j) / n) atTop (𝓝 α) := by
    rw [← tendsto_add_atTop_iff_nat 1]
    have h1 : Tendsto (fun n : ℕ => (n : ℝ) / (n + 1)) atTop (𝓝 1) := tendsto_natCast_div_add_atTop 1
    have := ha.mul h1
    rw [mul_one] at this
    refine this.congr' ?_
    filter_upwards [eventually_gt_atTop 0] with n hn
    have : (n : ℝ) ≠ 0 := by exact_mod_cast hn.ne'
    rw [sum_gaps]
    push_cast
    field_simp
  refine (left_limit hg hS).congr fun n => ?_
  rw [through_eq]

/-- When the agents leave the `i`-th queue of a line with the given times between arrivals and times of services. -/
noncomputable def lineReal (A : ℕ → ℝ) (S : ℕ → ℕ → ℝ) : ℕ → ℕ → ℝ
  | 0 => through (S 0) fun r => ∑ j ∈ Finset.range (r + 1), A j
  | i + 1 => through (S (i + 1)) (lineReal A S i)

theorem lineReal_limit {A : ℕ → ℝ} {S : ℕ → ℕ → ℝ} {α : ℝ} {σ : ℕ → ℝ}
    (hA : Tendsto (fun n : ℕ => (∑ j ∈ Finset.range n, A j) / n) atTop (𝓝 α)) (i : ℕ)
    (hS : ∀ j ≤ i, Tendsto (fun n : ℕ => (∑ r ∈ Finset.range n, S j r) / n) atTop (𝓝 (σ j))) {M : ℝ}
    (hM : IsGreatest (insert α (σ '' Set.Iic i)) M) :
    Tendsto (fun n : ℕ => lineReal A S i n / n) atTop (𝓝 M) := by
  induction i generalizing M with
  | zero =>
    have e : M = max α (σ 0) := by
      refine hM.unique ⟨?_, ?_⟩
      · rcases max_choice α (σ 0) with h | h <;> rw [h]
        · exact Set.mem_insert _ _
        · exact Set.mem_insert_of_mem _ ⟨0, by simp, rfl⟩
      · rintro x (rfl | ⟨j, hj, rfl⟩)
        · exact le_max_left _ _
        · simp only [Set.mem_Iic, Nat.le_zero] at hj
          rw [hj]; exact le_max_right _ _
    rw [e]
    exact through_limit (last_small hA).1 (hS 0 le_rfl)
  | succ i ih =>
    have hfin : (insert α (σ '' Set.Iic i)).Finite := ((Set.finite_Iic i).image σ).insert α
    obtain ⟨M', hM'⟩ : ∃ M', IsGreatest (insert α (σ '' Set.Iic i)) M' := by
      obtain ⟨x, h1, h2⟩ := hfin.exists_maximalFor id _ (Set.insert_nonempty _ _)
      exact ⟨x, h1, fun y hy => by
        rcases le_total y x with h | h
        · exact h
        · exact h2 hy h⟩
    have e : M = max M' (σ (i + 1)) := by
      refine hM.unique ⟨?_, ?_⟩
      · rcases max_choice M' (σ (i + 1)) with h | h <;> rw [h]
        · rcases hM'.1 with h | ⟨j, hj, h⟩
          · exact .inl h
          · exact .inr ⟨j, Set.mem_Iic.mpr ((Set.mem_Iic.mp hj).trans (by omega)), h⟩
        · exact .inr ⟨i + 1, by simp, rfl⟩
      · rintro x (rfl | ⟨j, hj, rfl⟩)
        · exact (hM'.2 (Set.mem_insert _ _)).trans (le_max_left _ _)
        · rcases Nat.lt_or_ge i j with h | h
          · have : j = i + 1 := by have := Set.mem_Iic.mp hj; omega
            rw [this]; exact le_max_right _ _
          · exact (hM'.2 (.inr ⟨j, h, rfl⟩)).trans (le_max_left _ _)
    rw [e]
    exact through_limit (ih (fun j hj => hS j (by omega)) hM') (hS (i + 1) le_rfl)

/-- The calls add the given times. -/
structure Times {R : Type*} (N : NetCfg (WithTop ℝ) R) (q : ℕ → Nat) (m : ℕ) (A : ℕ → ℝ) (S : ℕ → ℕ → ℝ) : Prop where
  arr : ∀ j t, (N.qc (q 0)).arrivalF j t = t + (A j : ℝ)
  svc : ∀ i ≤ m, ∀ j t, (N.qc (q i)).serviceF j t = t + (S i j : ℝ)

theorem Times.line {R : Type*} {N : NetCfg (WithTop ℝ) R} {q : ℕ → Nat} {m : ℕ} {A : ℕ → ℝ} {S : ℕ → ℕ → ℝ}
    (h : Times N q m A S) {i : ℕ} (hi : i ≤ m) (r : ℕ) : lineTime N q i r = ((lineReal A S i r : ℝ) : WithTop ℝ) := by
  have pass : ∀ {i : ℕ} (_ : i ≤ m) {a : ℕ → WithTop ℝ} {a' : ℕ → ℝ}, (∀ r, a r = (a' r : WithTop ℝ)) →
      ∀ r, passage (N.qc (q i)).serviceF a r = ((through (S i) a' r : ℝ) : WithTop ℝ) := by
    intro i hi a a' ha r
    induction r with
    | zero => rw [passage, h.svc i hi, ha, through]; norm_cast
    | succ r ih => rw [passage, h.svc i hi, ha, ih, through]; norm_cast
  induction i generalizing r with
  | zero =>
    refine pass hi (fun r => ?_) r
    generalize r + 1 = n
    induction n with
    | zero => rfl
    | succ n ih => rw [drawn, ih, h.arr, Finset.sum_range_succ, Nat.zero_add]; norm_cast
  | succ i ih => exact pass hi (fun r => ih (by omega) r) r

variable {Ω : Type*} [MeasurableSpace Ω] {P : Measure Ω} [IsProbabilityMeasure P] {A : ℕ → Ω → ℝ} {S : ℕ → ℕ → Ω → ℝ}

/-- C135: if the times between arrivals, and the services of each queue of the line, are of one law and pairwise independent
(those of different queues may depend on each other), then with probability 1 there are times `D i r` at which the `r`-th
agent leaves the `i`-th queue in every history, and `D i r / r` tends to the greatest of the means of the times between
arrivals and of the services of the queues up to the `i`-th. -/
theorem C135_bottleneck {R : Type*} [LinearOrder R] [Add R] {N : Ω → NetCfg (WithTop ℝ) R} {q : ℕ → Nat} {m : ℕ}
    (hN : ∀ ω, (N ω).OkA) (hmax : ∀ ω, (N ω).maxAgents = .inf) (hl : ∀ ω, Line (N ω) q m)
    (ht : ∀ ω, Times (N ω) q m (A · ω) fun i j => S i j ω)
    (hA : Integrable (A 0) P) (hAi : Pairwise fun i j => IndepFun (A i) (A j) P)
    (hAd : ∀ i, IdentDistrib (A i) (A 0) P P)
    (hS : ∀ i ≤ m, Integrable (S i 0) P) (hSi : ∀ i ≤ m, Pairwise fun j k => IndepFun (S i j) (S i k) P)
    (hSd : ∀ i ≤ m, ∀ j, IdentDistrib (S i j) (S i 0) P P) :
    ∀ᵐ ω ∂P, ∃ D : ℕ → ℕ → ℝ,
      (∀ b n L, NetTraj (N ω) b (LineOk (Downstream q m)) n L → ∀ i ≤ m, ∀ r p,
        (atStage 2 (netStamps (q i) n L))[r]? = some p → p = ((q 0, r), (D i r : WithTop ℝ))) ∧
      ∀ i ≤ m, ∀ M, IsGreatest (insert (∫ ω, A 0 ω ∂P) ((fun j => ∫ ω, S j 0 ω ∂P) '' Set.Iic i)) M →
        Tendsto (fun r : ℕ => D i r / r) atTop (𝓝 M) := by
  have kA := strong_law_ae_real (μ := P) A hA hAi hAd
  have kS : ∀ᵐ ω ∂P, ∀ i ≤ m,
      Tendsto (fun n : ℕ => (∑ j ∈ Finset.range n, S i j ω) / n) atTop (𝓝 (∫ ω, S i 0 ω ∂P)) := by
    rw [ae_all_iff]
    intro i
    by_cases hi : i ≤ m
    · filter_upwards [strong_law_ae_real (μ := P) (S i) (hS i hi) (hSi i hi) (hSd i hi)] with ω h _
      exact h
    · exact ae_of_all _ fun ω h => absurd h hi
  filter_upwards [kA, kS] with ω h1 h2
  refine ⟨lineReal (A · ω) fun i j => S i j ω, fun b n L h i hi r p hp => ?_, fun i hi M hM => ?_⟩
  · rw [(C135_line (hN ω) (hmax ω) (hl ω) h hi).2 r p hp, (ht ω).line hi]
  · exact lineReal_limit h1 i (fun j hj => h2 j (hj.trans hi)) hM

end

/-! ## Lines exist -/

/-- A line of `m + 1` queues, and a way out. -/
noncomputable def lineNet (m : ℕ) (A : ℕ → ℝ) (S : ℕ → ℕ → ℝ) : NetCfg (WithTop ℝ) ℕ where
  nE := m + 2
  qc k := { givenQueue A (S k) with kind := if k ≤ m then .server else .null, edge := ⟨k, k + 1, k, if k ≤ m then 1 else 0⟩ }
  outEdges v := if 0 < v ∧ v ≤ m + 1 then [v] else []
  maxAgents := .inf
  unif _ := 0
  jit _ t := t
  garbage _ _ := (0, 0)

theorem lineNet_ok (m : ℕ) {A : ℕ → ℝ} {S : ℕ → ℕ → ℝ} (hA : ∀ j, 0 ≤ A j) (hS : ∀ i j, 0 ≤ S i j) :
    (lineNet m A S).OkA ∧ (lineNet m A S).maxAgents = .inf ∧ Line (lineNet m A S) id m ∧ Times (lineNet m A S) id m A S := by
  have out : ∀ {k e : ℕ}, e ∈ (lineNet m A S).outEdges ((lineNet m A S).qc k).edge.tgt → e = k + 1 ∧ k ≤ m := by
    intro k e he
    simp only [lineNet] at he
    split at he
    · rename_i h
      exact ⟨by simpa using he, by omega⟩
    · simp at he
  have kind : ∀ {k : ℕ}, k ≤ m → ((lineNet m A S).qc k).kind = .server := fun h => by simp [lineNet, h]
  have free : ∀ i ≤ m, Free1 (lineNet m A S) i := fun i hi => by
    refine ⟨by simp only [lineNet]; omega, kind hi, fun e he => ?_⟩
    simp only [lineNet]
    split <;> simp
  refine ⟨⟨fun _ _ => rfl, fun k _ => (givenQueue_one hA (hS k)).forward, fun k hk hn => ?_, fun k hk hn e he => ?_,
    fun _ _ => le_rfl⟩, rfl, ⟨free, fun _ _ => rfl, ⟨kind (Nat.zero_le _), rfl, rfl, WithTop.coe_lt_top (0 : ℝ),
    (givenQueue_one hA (hS 0)).endless.fin⟩, fun k _ h => ?_, fun i hi => ⟨?_, ?_, kind (Nat.succ_le_of_lt hi), ?_, ?_⟩⟩,
    ⟨fun _ _ => rfl, fun _ _ _ _ => rfl⟩⟩
  · simp only [lineNet] at hn ⊢
    have : k ≤ m := by by_contra h; simp [h] at hn
    simp; omega
  · have := out he
    simp only [lineNet]; omega
  · have := (out h).1; simp at this
  · simp
  · simp only [lineNet, id]; omega
  · intro x hx; exact (out hx).1
  · intro j _ hj; have := (out hj).1; simp only [id] at this ⊢; omega

/-- Two queues: arrivals every 1, services that take `s` and then `t`. -/
def rowOf (s t : ℕ∞) : NetCfg ℕ∞ ℕ where
  nE := 3
  qc k := match k with
    | 0 => demoQ .server 0 1 0 1 1 s .inf
    | 1 => demoQ .server 1 2 1 1 1 t .inf
    | _ => demoQ .null 2 3 k 0 1 1 .inf
  outEdges v := match v with
    | 1 => [1]
    | 2 => [2]
    | _ => []
  maxAgents := .inf
  unif _ := 0
  jit _ t := t
  garbage _ _ := (0, 0)

variable {s t : ℕ∞}

theorem rowOf_out {k e : ℕ} (h : e ∈ (rowOf s t).outEdges ((rowOf s t).qc k).edge.tgt) : e = k + 1 ∧ k ≤ 1 := by
  match k with
  | 0 => simp_all [rowOf, demoQ]
  | 1 => simp_all [rowOf, demoQ]
  | k + 2 => simp [rowOf, demoQ] at h

theorem rowOf_ok (s t : ℕ∞) : (rowOf s t).OkA where
  idx k hk := by match k with
    | 0 => rfl
    | 1 => rfl
    | k + 2 => rfl
  fwd k hk := by match k with
    | 0 => exact ⟨fun _ _ => le_self_add, fun _ _ => le_self_add⟩
    | 1 => exact ⟨fun _ _ => le_self_add, fun _ _ => le_self_add⟩
    | k + 2 => exact ⟨fun _ _ => le_self_add, fun _ _ => le_self_add⟩
  out k hk hn := by match k with
    | 0 => simp [rowOf, demoQ]
    | 1 => simp [rowOf, demoQ]
    | k + 2 => simp [rowOf, demoQ] at hn
  outLt k hk hn e he := by
    obtain ⟨h1, h2⟩ := rowOf_out he
    simp only [rowOf]; omega
  jit _ _ := le_rfl

theorem rowOf_line (s t : ℕ∞) : Line (rowOf s t) id 1 where
  free i hi := by
    refine ⟨by simp only [rowOf, id]; omega, ?_, fun e he => ?_⟩
    · interval_cases i <;> rfl
    · obtain ⟨h1, h2⟩ := rowOf_out he
      interval_cases i <;> subst h1 <;> simp [rowOf, demoQ]
  one i hi := by interval_cases i <;> rfl
  source := ⟨rfl, rfl, rfl, by decide, fun _ t ht => by
    have : t + 1 < ⊤ := WithTop.add_lt_top.mpr ⟨ht, WithTop.coe_lt_top 1⟩
    exact this⟩
  first k _ h := by have := (rowOf_out h).1; simp at this
  fed i hi := by
    obtain rfl : i = 0 := by omega
    exact ⟨by simp, by simp [rowOf], rfl, fun x hx => (rowOf_out hx).1, fun j _ hj => by
      have := (rowOf_out hj).1; simp only [id] at this ⊢; omega⟩

def rowProbs (v : ℕ) : List ℕ := List.replicate ((rowOf 0 0).outEdges v).length 1

def rowRun (m : ℕ) : List (NetOp ℕ) := .initialise (fun _ _ => []) (.queues [0]) :: List.replicate m .step

def rowAt (s t : ℕ∞) (m : ℕ) : Net ℕ∞ ℕ := resNet (rowOf s t) (fun _ => true) true rowProbs (rowRun m)

def rowPass (s t : ℕ∞) (m : ℕ) : List (Net ℕ∞ ℕ) :=
  passNet (rowOf s t) (Net.init (rowOf s t) (fun _ => true) true rowProbs) [] (rowRun m)

theorem rowAt_traj {m : ℕ} (h : (runNet (rowOf s t) (Net.init (rowOf s t) (fun _ => true) true rowProbs) (rowRun m)).isSome = true) :
    NetTraj (rowOf s t) (fun _ => true) (LineOk (Downstream id 1)) (rowAt s t m) (rowPass s t m) := by
  obtain ⟨n', hn⟩ := Option.isSome_iff_exists.mp h
  have : rowAt s t m = n' := by rw [rowAt, resNet, hn]; rfl
  rw [this]
  refine NetTraj.ofOps _ (fun op ho n => ?_) (.new true rowProbs fun _ => List.length_replicate) hn
  simp only [rowRun, List.mem_cons, List.mem_replicate] at ho
  rcases ho with rfl | ⟨-, rfl⟩
  · refine .inr ⟨_, _, rfl, fun e he ⟨i, hi, hd⟩ => ?_⟩
    simp at he hd
    omega
  · exact .inl rfl

/-- A history in which four agents have left the first queue, at 3, 5, 7 and 9, and two the second, at 6 and 9. -/
example : atStage 2 (netStamps 0 (rowAt 2 3 16) (rowPass 2 3 16)) = [((0, 0), 3), ((0, 1), 5), ((0, 2), 7), ((0, 3), 9)] ∧
    atStage 2 (netStamps 1 (rowAt 2 3 16) (rowPass 2 3 16)) = [((0, 0), 6), ((0, 1), 9)] ∧
    lineTime (rowOf 2 3) id 0 3 = 9 ∧ lineTime (rowOf 2 3) id 1 1 = 9 := by
  decide +kernel

example : ∀ r p, (atStage 2 (netStamps 1 (rowAt 2 3 16) (rowPass 2 3 16)))[r]? = some p → p = ((0, r), lineTime (rowOf 2 3) id 1 r) :=
  (C135_line (rowOf_ok 2 3) rfl (rowOf_line 2 3) (rowAt_traj (m := 16) (by decide +kernel)) (i := 1) le_rfl).2

section
open Filter Topology MeasureTheory ProbabilityTheory

/-- Arrivals every 1; three queues with services that take 0 or 3, 0 or 6, 0 or 3, with probability 1/2 each: agents leave
the first queue at rate 2/3, the second and the third at rate 1/3. -/
example : ∀ᵐ ω ∂Measure.infinitePi (fun _ : ℕ × ℕ => coin), ∃ D : ℕ → ℕ → ℝ,
    (∀ b n L, NetTraj (lineNet 2 (fun _ => 1) fun i j => (if i = 1 then 2 else 1) * |ω (i, j)|) b
      (LineOk (Downstream id 2)) n L → ∀ i ≤ 2, ∀ r p,
      (atStage 2 (netStamps i n L))[r]? = some p → p = ((0, r), (D i r : WithTop ℝ))) ∧
    Tendsto (fun r : ℕ => D 0 r / r) atTop (𝓝 (3 / 2)) ∧ Tendsto (fun r : ℕ => D 1 r / r) atTop (𝓝 3) ∧
    Tendsto (fun r : ℕ => D 2 r / r) atTop (𝓝 3) := by
  let P := Measure.infinitePi (fun _ : ℕ × ℕ => coin)
  let w : ℕ → ℝ := fun i => if i = 1 then 2 else 1
  have hw : ∀ i, 0 ≤ w i := fun i => by simp only [w]; split <;> norm_num
  have ev : ∀ x, P.map (fun ω => ω x) = coin := fun x => Measure.infinitePi_map_eval (fun _ : ℕ × ℕ => coin) x
  have meas : ∀ i, Measurable fun x : ℝ => w i * |x| := fun i => by fun_prop
  have idd : ∀ i j, IdentDistrib (fun ω : ℕ × ℕ → ℝ => w i * |ω (i, j)|) (fun ω => w i * |ω (i, 0)|) P P := by
    intro i j
    have : IdentDistrib (fun ω : ℕ × ℕ → ℝ => ω (i, j)) (fun ω => ω (i, 0)) P P :=
      ⟨(measurable_pi_apply _).aemeasurable, (measurable_pi_apply _).aemeasurable, by rw [ev, ev]⟩
    exact this.comp (meas i)
  have int : ∀ i, Integrable (fun ω : ℕ × ℕ → ℝ => w i * |ω (i, 0)|) P := by
    intro i
    have hx := coin_int
    rw [← ev (i, 0)] at hx
    exact ((integrable_map_measure aestronglyMeasurable_id (measurable_pi_apply _).aemeasurable).mp hx).abs.const_mul _
  have mean : ∀ i, ∫ ω, w i * |ω (i, 0)| ∂P = w i * (3 / 2) := by
    intro i
    rw [← coin_mean, ← integral_const_mul]
    conv_rhs => rw [← ev (i, 0)]
    rw [integral_map (measurable_pi_apply _).aemeasurable (meas i).aestronglyMeasurable]
  have ind : ∀ i, Pairwise fun j k => IndepFun (fun ω : ℕ × ℕ → ℝ => w i * |ω (i, j)|) (fun ω => w i * |ω (i, k)|) P := by
    intro i j k hjk
    exact (iIndepFun_infinitePi (P := fun _ : ℕ × ℕ => coin) (X := fun x y => w x.1 * |y|) fun x => meas x.1).indepFun
      (i := (i, j)) (j := (i, k)) (by simpa using hjk)
  have ok := fun ω : ℕ × ℕ → ℝ => lineNet_ok 2 (A := fun _ => 1) (S := fun i j => w i * |ω (i, j)|)
    (fun _ => zero_le_one) fun i j => mul_nonneg (hw i) (abs_nonneg _)
  have key := C135_bottleneck (P := P) (A := fun _ _ => 1) (S := fun i j ω => w i * |ω (i, j)|)
    (fun ω => (ok ω).1) (fun ω => (ok ω).2.1) (fun ω => (ok ω).2.2.1) (fun ω => (ok ω).2.2.2)
    (integrable_const _) (fun _ _ _ => indepFun_const_left _ _) (fun _ => .refl aemeasurable_const)
    (fun i _ => int i) (fun i _ => ind i) (fun i _ => idd i)
  filter_upwards [key] with ω ⟨D, g1, g2⟩
  refine ⟨D, g1, g2 0 (by omega) _ ?_, g2 1 (by omega) _ ?_, g2 2 le_rfl _ ?_⟩
  all_goals
    simp only [mean, integral_const, w]
    norm_num
  · constructor
    · exact .inr ⟨0, by simp, by simp⟩
    · rintro x (rfl | ⟨j, hj, rfl⟩)
      · norm_num
      · simp at hj; subst hj; norm_num
  · constructor
    · exact .inr ⟨1, by simp, by norm_num⟩
    · rintro x (rfl | ⟨j, hj, rfl⟩)
      · norm_num
      · simp only; split <;> norm_num
  · constructor
    · exact .inr ⟨1, by simp, by norm_num⟩
    · rintro x (rfl | ⟨j, hj, rfl⟩)
      · norm_num
      · simp only; split <;> norm_num

end

end Verif.NetSpec
