import Verif.AnyRun

/-!
# What the queues of a network see of its histories

Every operation on a network amounts, for each of its queues, to a sequence of operations on that queue alone. So
every history of a network is a history of each of its queues that is not a NullQueue.
-/

namespace Verif

variable {T : Type*} [LinearOrder T] [OrderTop T] [Zero T]
variable {R : Type*} [LinearOrder R] [Add R]

/-- `s'` is reached from `s` by operations that satisfy `P` in the state they are performed in. -/
inductive Ops (c : QCfg T) (P : QS T → QOp T → Prop) (s : QS T) : QS T → Prop
  | refl : Ops c P s s
  | step {s1 s2 : QS T} (op : QOp T) : Ops c P s s1 → P s1 op → op.run c s1 = .ok s2 → Ops c P s s2

theorem Ops.trans {c : QCfg T} {P : QS T → QOp T → Prop} {s s1 s2 : QS T} (h1 : Ops c P s s1)
    (h2 : Ops c P s1 s2) : Ops c P s s2 := by
  induction h2 with
  | refl => exact h1
  | step op _ hp hr ih => exact ih.step op hp hr

theorem Ops.mono {c : QCfg T} {P P' : QS T → QOp T → Prop} {s s' : QS T} (h : Ops c P s s')
    (hp : ∀ s q, P s q → P' s q) : Ops c P' s s' := by
  induction h with
  | refl => exact .refl
  | step op _ h' hr ih => exact ih.step op (hp _ _ h') hr

theorem Ops.one {c : QCfg T} {P : QS T → QOp T → Prop} {s s' : QS T} (op : QOp T) (hp : P s op)
    (hr : op.run c s = .ok s') : Ops c P s s' := Ops.refl.step op hp hr

theorem Reach.ops {c : QCfg T} {b : Bool} {P : QS T → QOp T → Prop} {s s' : QS T} (h : Reach c b P s)
    (ho : Ops c P s s') : Reach c b P s' := by
  induction ho with
  | refl => exact h
  | step op _ hp hr ih => exact ih.step op hp hr

/-- The operations that events of the network perform on its queues. -/
def EvOp (s : QS T) (q : QOp T) : Prop :=
  ClockOk s q ∧ (q = .next ∨ q = .setInactive ∨ q = .note ∨ (∃ t, q = .delay t 1) ∨ ∃ a, q = .handover a ∧ a.time < ⊤)

theorem ops_inactive {c : QCfg T} (f : Bool) (s : QS T) : Ops c EvOp s (if f then setInactive s else s) := by
  cases f with
  | true => exact Ops.one .setInactive ⟨trivial, by simp⟩ rfl
  | false => exact .refl

theorem ArrEffA.ops {c : QCfg T} {s s' : QS T} (h : ArrEffA c s s') : Ops c EvOp s s' :=
  Ops.one .next ⟨trivial, by simp⟩ (by simp [QOp.run, h.ev])

theorem DepEffA.ops {c : QCfg T} {s s' : QS T} {a a' : Agent T} (h : DepEffA c s s' a a') : Ops c EvOp s s' :=
  Ops.one .next ⟨trivial, by simp⟩ (by simp [QOp.run, h.ev])

theorem RecvEffA.ops {c : QCfg T} {s s' : QS T} {a : Agent T} {off : QS T → Bool} (h : RecvEffA c s s' a off)
    (hc : s.currentT ≤ a.time) (hf : a.time < ⊤) : Ops c EvOp s s' := by
  obtain ⟨m, h1, -, -, -, -, -, -, -, -, -, -, -, h2⟩ := h.mid
  exact ((Ops.one (.handover a) ⟨hc, by simp [hf]⟩ (by simp [QOp.run, h1])).trans (ops_inactive (off m) m)).trans h2.ops

/-- An event of the network amounts to operations on each queue. -/
theorem StepOutA.ops {N : NetCfg T R} (hN : N.OkA) {b : Nat → Bool} {n n' : Net T R} (hi : NetInvA N b n)
    (h : StepOutA N n n') {j : Nat} (hj : j < N.nE) (hs : (N.qc j).kind ≠ .null) :
    Ops (N.qc j) EvOp (n.qs j) (n'.qs j) := by
  have hcl : ∀ k < N.nE, (N.qc k).kind ≠ .null → (n.qs k).currentT ≤ (n.qs k).time := by
    intro k hk hsk
    exact (hi.clk k hk hsk).trans (hi.tau k hk)
  cases h with
  | empty h0 h1 => rw [h1]; exact .refl
  | idle k x hp h1 h2 h3 h4 h5 h6 h7 => rw [h7]; exact .refl
  | arrive k s' h1 h2 h3 h4 h5 h6 h7 h8 h9 h10 =>
    rw [h8]
    by_cases hjk : j = k
    · subst hjk
      rw [Function.update_self]
      exact (ops_inactive _ _).trans h7.ops
    · rw [Function.update_of_ne hjk]; exact .refl
  | block k e a s1 d h1 h2 h3 h4 h5 h6 h7 h8 h9 h10 h11 h12 h13 h14 h15 =>
    rw [h13]
    by_cases hjk : j = k
    · subst hjk
      rw [Function.update_self]
      refine Ops.one (.delay _ 1) ⟨?_, by simp⟩ h12.ev
      cases hb : n.bas with
      | false => simp [ClockOk]
      | true =>
        simp only [if_true, ClockOk]
        refine (hcl j h1 h5).trans ((h7 e h3).trans ?_)
        refine le_trans ?_ (hN.jit _ _)
        rw [(hi.good e h3).base.time]
        exact min_le_right _ _
    · rw [Function.update_of_ne hjk]
      by_cases hje : j = e
      · subst hje
        rw [Function.update_self]
        exact Ops.one .note ⟨trivial, by simp⟩ (by simp [QOp.run, h11])
      · rw [Function.update_of_ne hje]; exact .refl
  | move k e a a' s1 s2 d h1 h2 h3 h4 h5 h6 h7 h8 h9 h10 h11 h12 h13 h14 =>
    rw [h12]
    have hmid : Ops (N.qc j) EvOp (n.qs j) (Function.update n.qs k s1 j) := by
      by_cases hjk : j = k
      · subst hjk; rw [Function.update_self]; exact h10.ops
      · rw [Function.update_of_ne hjk]; exact .refl
    by_cases hje : j = e
    · subst hje
      rw [Function.update_self]
      cases h11 with
      | null m g1 => exact absurd g1 hs
      | queue g1 g2 =>
        refine hmid.trans (g2.ops ?_ (by rw [h10.time]; exact h5))
        rw [h10.time]
        by_cases hjk : j = k
        · subst hjk; rw [Function.update_self, h10.cur]
        · rw [Function.update_of_ne hjk]
          exact (hi.clk j hj hs).trans (hi.tau k h1)
    · rw [Function.update_of_ne hje]; exact hmid

/-- Histories of a network in which each operation satisfies `ok` in the state it is performed in. -/
inductive NetHist (N : NetCfg T R) (b : Nat → Bool) (ok : Net T R → NetOp R → Prop) : Net T R → Prop
  | new (bas : Bool) (probs : Nat → List R) : (∀ v, (probs v).length = (N.outEdges v).length) →
      NetHist N b ok (Net.init N b bas probs)
  | step {n n' : Net T R} (op : NetOp R) : NetHist N b ok n → op.Allowed N n → ok n op → op.run N n = .ok n' →
      NetHist N b ok n'

theorem NetHist.reach {N : NetCfg T R} {b : Nat → Bool} {ok : Net T R → NetOp R → Prop} {n : Net T R}
    (h : NetHist N b ok n) : NetReach N b n := by
  induction h with
  | new bas probs hp => exact .new bas probs hp
  | step op _ ha _ hr ih => exact ih.step op ha hr

theorem NetReach.hist {N : NetCfg T R} {b : Nat → Bool} {n : Net T R} (h : NetReach N b n) :
    NetHist N b (fun _ _ => True) n := by
  induction h with
  | new bas probs hp => exact .new bas probs hp
  | step op _ ha hr ih => exact ih.step op ha trivial hr

/-- The operations that queue `k` sees in a history whose operations satisfy `ok`. The events of the network run it,
stop it, count blocked agents, postpone departures by one blocked agent, and hand agents over, no earlier than its
clock and at finite times; everything else comes from an operation on the network. -/
def SeenBy (ok : Net T R → NetOp R → Prop) (k : Nat) (s : QS T) : QOp T → Prop
  | .next => ∃ n, ok n .step
  | .setInactive => ∃ n, ok n .step ∨ ok n (.setInactive k)
  | .note => ∃ n, ok n .step
  | .delay t x => x = 1 ∧ (∀ u, t = some u → s.currentT ≤ u) ∧ ∃ n, ok n .step
  | .handover a => s.currentT ≤ a.time ∧ a.time < ⊤ ∧ ∃ n, ok n .step
  | .setServers m => ∃ n : Net T R, n.qs k = s ∧ ok n (.setServers k m)
  | .setActive => ∃ n pick a, ok n (.initialise pick a)
  | .clear => ∃ n : Net T R, n.qs k = s ∧ ok n .clear
  | .collect x => ∃ n ks, k ∈ ks ∧ ok n (.collect x ks)
  | .clearData => ∃ n ks, k ∈ ks ∧ ok n (.clearData ks)

omit [Zero T] [LinearOrder R] [Add R] in
theorem SeenBy.clock {ok : Net T R → NetOp R → Prop} {k : Nat} {s : QS T} {q : QOp T} (h : SeenBy ok k s q) :
    ClockOk s q := by
  cases q with
  | delay t x => cases t with
    | none => exact trivial
    | some u => exact h.2.1 u rfl
  | handover a => exact h.1
  | _ => exact trivial

omit [Zero T] [LinearOrder R] [Add R] in
theorem EvOp.seen {ok : Net T R → NetOp R → Prop} {n : Net T R} (ho : ok n .step) {k : Nat} {s : QS T} {q : QOp T}
    (h : EvOp s q) : SeenBy ok k s q := by
  obtain ⟨h1, rfl | rfl | rfl | ⟨t, rfl⟩ | ⟨a, rfl, h2⟩⟩ := h
  · exact ⟨n, ho⟩
  · exact ⟨n, .inl ho⟩
  · exact ⟨n, ho⟩
  · exact ⟨rfl, fun u hu => by subst hu; exact h1, n, ho⟩
  · exact ⟨h1, h2, n, ho⟩

omit [LinearOrder R] [Add R] in
theorem activate_ops {N : NetCfg T R} {P : QS T → QOp T → Prop} (hP : ∀ s, P s .setActive) (k : Nat) :
    ∀ (l : List Nat) (n n' : Net T R), Net.activate N l n = .ok n' → Ops (N.qc k) P (n.qs k) (n'.qs k) := by
  intro l
  induction l with
  | nil => intro n n' h; simp only [Net.activate, Except.ok.injEq] at h; rw [h]; exact .refl
  | cons e es ih =>
    intro n n' h
    simp only [Net.activate] at h
    split at h
    · simp at h
    · split at h
      · simp at h
      · rename_i s' hs
        refine Ops.trans ?_ (ih _ _ h)
        by_cases hke : k = e
        · subst hke
          simp only [Net.setNum, Net.setQ, Function.update_self]
          exact Ops.one .setActive (hP _) hs
        · simp only [Net.setNum, Net.setQ, Function.update_of_ne hke]; exact .refl

omit [LinearOrder R] [Add R] in
theorem collect_ops {c : QCfg T} {P : QS T → QOp T → Prop} {x : Bool} {k : Nat} : ∀ (ks : List Nat) (n : Net T R),
    (k ∈ ks → ∀ s, P s (.collect x)) → Ops c P (n.qs k) ((n.collect x ks).qs k) := by
  intro ks
  induction ks with
  | nil => intro n _; exact .refl
  | cons e es ih =>
    intro n hP
    refine Ops.trans ?_ (ih _ (fun h => hP (by simp [h])))
    by_cases hke : k = e
    · subst hke
      simp only [Net.setQ, Function.update_self]
      exact Ops.one (.collect x) (hP (by simp) _) rfl
    · simp only [Net.setQ, Function.update_of_ne hke]; exact .refl

omit [LinearOrder R] [Add R] in
theorem clearData_ops {c : QCfg T} {P : QS T → QOp T → Prop} {k : Nat} : ∀ (ks : List Nat) (n : Net T R),
    (k ∈ ks → ∀ s, P s .clearData) → Ops c P (n.qs k) ((n.clearData ks).qs k) := by
  intro ks
  induction ks with
  | nil => intro n _; exact .refl
  | cons e es ih =>
    intro n hP
    refine Ops.trans ?_ (ih _ (fun h => hP (by simp [h])))
    by_cases hke : k = e
    · subst hke
      simp only [Net.setQ, Function.update_self]
      exact Ops.one .clearData (hP (by simp) _) rfl
    · simp only [Net.setQ, Function.update_of_ne hke]; exact .refl

/-- Every operation on a network amounts to operations on each queue. -/
theorem NetOp.ops {N : NetCfg T R} (hN : N.OkA) {b : Nat → Bool} {ok : Net T R → NetOp R → Prop} {n n' : Net T R}
    (hi : NetInvA N b n) (op : NetOp R) (ho : ok n op) (hr : op.run N n = .ok n') {k : Nat}
    (hk : k < N.nE) (hs : (N.qc k).kind ≠ .null) : Ops (N.qc k) (SeenBy ok k) (n.qs k) (n'.qs k) := by
  cases op with
  | step =>
    rw [NetOp.run, simulate_one] at hr
    split at hr
    · rename_i hin
      rcases step_specA hN hi hin with ⟨n2, g1, g2, -⟩ | ⟨g1, -⟩
      · rw [g1] at hr; simp only [Except.ok.injEq] at hr; subst hr
        exact (g2.ops hN hi hk hs).mono fun s q h => h.seen ho
      · rw [g1] at hr; simp at hr
    · simp at hr
  | initialise pick a =>
    have hr : n.initialise N pick a = .ok n' := hr
    unfold Net.initialise at hr
    split at hr
    · simp at hr
    · split at hr
      · simp at hr
      · split at hr
        · simp at hr
        · split at hr
          · simp at hr
          · rename_i n1 h1
            split at hr
            · simp at hr
            · simp only [Except.ok.injEq] at hr
              subst hr
              have := activate_ops (P := SeenBy ok k) (fun s => ⟨n, pick, a, ho⟩) k _ _ _ h1
              exact this
  | clear =>
    simp only [NetOp.run, Except.ok.injEq] at hr; subst hr
    exact Ops.one .clear ⟨n, rfl, ho⟩ rfl
  | collect x ks =>
    simp only [NetOp.run, Except.ok.injEq] at hr; subst hr
    exact collect_ops ks n fun h s => ⟨n, ks, h, ho⟩
  | clearData ks =>
    simp only [NetOp.run, Except.ok.injEq] at hr; subst hr
    exact clearData_ops ks n fun h s => ⟨n, ks, h, ho⟩
  | setProbs p => simp only [NetOp.run, Except.ok.injEq] at hr; subst hr; exact .refl
  | setBlocking bas => simp only [NetOp.run, Except.ok.injEq] at hr; subst hr; exact .refl
  | copy =>
    obtain ⟨h', g1, -⟩ := hi.copy hN
    simp only [NetOp.run, g1, Except.ok.injEq] at hr
    subst hr; exact .refl
  | setServers e m =>
    simp only [NetOp.run, Except.ok.injEq] at hr; subst hr
    by_cases hke : k = e
    · subst hke
      simp only [Net.setQ, Function.update_self]
      exact Ops.one (.setServers m) ⟨n, rfl, ho⟩ rfl
    · simp only [Net.setQ, Function.update_of_ne hke]; exact .refl
  | setInactive e =>
    simp only [NetOp.run, Except.ok.injEq] at hr; subst hr
    by_cases hke : k = e
    · subst hke
      simp only [Net.setQ, Function.update_self]
      exact Ops.one .setInactive ⟨n, .inr ho⟩ rfl
    · simp only [Net.setQ, Function.update_of_ne hke]; exact .refl

/-- A history of a network is a history of each of its queues that is not a NullQueue. -/
theorem NetHist.queue {N : NetCfg T R} (hN : N.OkA) {b : Nat → Bool} {ok : Net T R → NetOp R → Prop} {n : Net T R}
    (h : NetHist N b ok n) {k : Nat} (hk : k < N.nE) (hs : (N.qc k).kind ≠ .null) :
    Reach (N.qc k) (b k) (SeenBy ok k) (n.qs k) := by
  induction h with
  | new bas probs hp => exact .init
  | step op h1 ha ho hr ih => exact ih.ops (op.ops hN (h1.reach.invA hN) ho hr hk hs)

/-- No number of servers is lowered. -/
def NoLowering (n : Net T R) (op : NetOp R) : Prop :=
  ∀ k m, op = .setServers k m → NoLower (n.qs k) (.setServers m)

omit [Zero T] [LinearOrder R] [Add R] in
theorem SeenBy.noLower {ok : Net T R → NetOp R → Prop} (ho : ∀ n op, ok n op → NoLowering n op) {k : Nat} {s : QS T}
    {q : QOp T} (h : SeenBy ok k s q) : NoLower s q := by
  cases q with
  | setServers m =>
    obtain ⟨n, rfl, hn⟩ := h
    exact ho _ _ hn k m rfl
  | _ => intro m hm; simp at hm

/-- While no number of servers is lowered, a LossQueue is never over its room. -/
theorem NetHist.room {N : NetCfg T R} (hN : N.OkA) {b : Nat → Bool} {n : Net T R} (h : NetHist N b NoLowering n)
    {k : Nat} (hk : k < N.nE) (hl : (N.qc k).kind = .loss)
    (h0 : ((N.qc k).servers.add (N.qc k).buffer).le 0 = true) : RoomInv (N.qc k) (n.qs k) :=
  (h.queue hN hk (by simp [hl])).roomInv hl h0 fun _ _ h => h.noLower fun _ _ h => h

end Verif
