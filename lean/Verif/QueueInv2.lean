import Verif.QueueInv

/-! # Further invariants of a single queue (proof support) -/

set_option linter.unusedSectionVars false
set_option linter.unusedSimpArgs false
set_option linter.unusedVariables false

namespace Verif

variable {T : Type*} [LinearOrder T] [OrderTop T] [Zero T]

/-- The created agents: consecutive ids, times before `deactive_t`. -/
structure CInv (c : QCfg T) (s : QS T) : Prop where
  ids : s.created.map Prod.fst = (List.range s.oArrivals).map fun i => (c.edge.idx, i)
  before : ∀ p ∈ s.created, p.2 < c.deactiveT

theorem CInv.ext {c : QCfg T} {s s' : QS T} {ext : List (Agent T)} (h : CInv c s)
    (hx : ext = [] ∨ ∃ b : Agent T, ext = [b] ∧ b.id = (c.edge.idx, s.oArrivals) ∧ b.time < c.deactiveT)
    (ho : s'.oArrivals = s.oArrivals + ext.length)
    (hc : s'.created = s.created ++ ext.map fun a => (a.id, a.time)) : CInv c s' := by
  rcases hx with rfl | ⟨b, rfl, h1, h2⟩
  · simp at ho hc
    exact ⟨by rw [hc, ho]; exact h.ids, by rw [hc]; exact h.before⟩
  · simp at ho hc
    refine ⟨?_, ?_⟩
    · rw [hc, ho, List.map_append, h.ids, List.range_succ]; simp [h1]
    · rw [hc]; intro p hp
      rcases List.mem_append.mp hp with hp | hp
      · exact h.before p hp
      · simp at hp; subst hp; exact h2

theorem ExtOut.shape {c : QCfg T} {s : QS T} {t : T} {ext : List (Agent T)} {ν : T} {act : Bool}
    {n : Nat} (h : ExtOut c s t ext ν act n) :
    ext = [] ∨ ∃ b : Agent T, ext = [b] ∧ b.id = (c.edge.idx, s.oArrivals) ∧ b.time < c.deactiveT := by
  cases h with
  | inactive => exact .inl rfl
  | early => exact .inl rfl
  | off => exact .inl rfl
  | new _ _ h => exact .inr ⟨_, rfl, rfl, h⟩

theorem AddOut.shape {c : QCfg T} {s : QS T} {ext : List (Agent T)} {ν : T} {act : Bool}
    {n : Nat} (h : AddOut c s ext ν act n) :
    ext = [] ∨ ∃ b : Agent T, ext = [b] ∧ b.id = (c.edge.idx, s.oArrivals) ∧ b.time < c.deactiveT := by
  cases h with
  | early => exact .inl rfl
  | off => exact .inl rfl
  | new _ h => exact .inr ⟨_, rfl, rfl, h⟩

theorem CInv.init (c : QCfg T) (b : Bool) : CInv c (QS.init c b) := by
  constructor <;> simp [QS.init]

theorem CInv.step {c : QCfg T} {s s' : QS T} {op : QOp T} (hk : Simple c) (h : CInv c s)
    (ho : OpOut c s op s') : CInv c s' := by
  cases ho with
  | ev s' r _ h1 =>
    cases h1 with
    | idle _ _ h2 => rw [h2]; exact h
    | dep a _ h2 _ => exact ⟨by rw [h2.created, h2.oArrivals]; exact h.ids,
        by rw [h2.created]; exact h.before⟩
    | arr a rest _ _ _ h2 _ =>
      obtain ⟨ext, e1, -, e3, e4⟩ := h2.ext
      exact h.ext e1.shape e3 e4
    | block a rest _ _ _ _ h2 _ =>
      obtain ⟨ext, e1, -, e3, e4⟩ := h2.ext
      exact h.ext e1.shape e3 e4
  | already => exact h
  | act arr ext ν act calls _ h1 h2 h3 => exact h.ext h1.shape rfl rfl
  | inact => exact ⟨h.ids, h.before⟩
  | srv n s' r h1 =>
    cases h1 with
    | typ => exact h
    | val => exact h
    | ok new k deps hnew hag hkl h2 h3 => exact ⟨h.ids, h.before⟩
  | delay t kb s' h1 =>
    cases h1 with
    | none => exact h
    | some a rest deps _ _ _ h4 h2 h3 => exact ⟨h.ids, h.before⟩
  | collect => exact ⟨h.ids, h.before⟩
  | noteFull => exact ⟨h.ids, h.before⟩
  | noteOpen => exact h
  | clearData => exact ⟨h.ids, h.before⟩
  | clear => rw [clear_simple c s hk]; constructor <;> simp
  | handover a arr h1 h2 h3 => exact ⟨h.ids, h.before⟩

theorem Reach.cinv {c : QCfg T} {b : Bool} {ok : QS T → QOp T → Prop} {s : QS T} (hk : Simple c)
    (h : Reach c b ok s) : CInv c s :=
  h.induct hk (CInv.init c b) fun _ _ _ _ hi _ ho => hi.step hk ho

/-! ## active_cap -/

/-- `set_active` is only called while fewer than `active_cap` agents were created. -/
def CapOk (c : QCfg T) (s : QS T) (op : QOp T) : Prop :=
  op = .setActive → s.active = false → c.activeCap.lt s.oArrivals = true

/-- Invariant for `active_cap`. -/
structure CapInv (c : QCfg T) (s : QS T) : Prop where
  le : c.activeCap.le s.oArrivals = true
  act : s.active = true → c.activeCap.lt s.oArrivals = true

theorem Cap.lt_to_le {n : Cap} {a : Nat} (h : n.lt a = true) : n.le (a + 1 : Nat) = true := by
  cases n with
  | inf => rfl
  | fin m => simp [Cap.lt, Cap.le] at *; omega

theorem CapInv.new {c : QCfg T} {s s' : QS T} (h : c.activeCap.lt s.oArrivals = true)
    (ho : s'.oArrivals = s.oArrivals + 1)
    (ha : s'.active = true → c.activeCap.lt ((s.oArrivals + 1 : Nat) : Int) = true) : CapInv c s' := by
  refine ⟨?_, ?_⟩
  · rw [ho]; exact Cap.lt_to_le h
  · intro h'; rw [ho]; exact ha h'

theorem CapInv.ext {c : QCfg T} {s s' : QS T} {t : T} {ext : List (Agent T)} {n : Nat}
    (h : CapInv c s) (hx : ExtOut c s t ext s'.nextCt s'.active n)
    (ho : s'.oArrivals = s.oArrivals + ext.length) : CapInv c s' := by
  generalize hν : s'.nextCt = ν at hx
  generalize hα : s'.active = α at hx
  cases hx with
  | inactive => simp at ho; exact ⟨by rw [ho]; exact h.le, by simp [hα]⟩
  | early h1 => simp at ho; exact ⟨by rw [ho]; exact h.le, by rw [ho]; intro _; exact h.act h1⟩
  | off => simp at ho; exact ⟨by rw [ho]; exact h.le, by simp [hα]⟩
  | new h1 => simp at ho; exact .new (h.act h1) ho (by rw [hα]; exact id)

theorem CapInv.step {c : QCfg T} {s s' : QS T} {op : QOp T} (hk : Simple c)
    (h1 : c.activeCap.le 1 = true) (h : CapInv c s) (hok : CapOk c s op)
    (ho : OpOut c s op s') : CapInv c s' := by
  cases ho with
  | ev s' r _ h1 =>
    cases h1 with
    | idle _ _ h2 => rw [h2]; exact h
    | dep a _ h2 _ => exact ⟨by rw [h2.oArrivals]; exact h.le,
        by rw [h2.oArrivals, h2.active]; exact h.act⟩
    | arr a rest _ _ _ h2 _ =>
      obtain ⟨ext, e1, -, e3, e4⟩ := h2.ext
      exact h.ext e1 e3
    | block a rest _ _ _ _ h2 _ =>
      obtain ⟨ext, e1, -, e3, e4⟩ := h2.ext
      exact h.ext e1 e3
  | already => exact h
  | act arr ext ν act calls ha h1 h2 h3 =>
    have hlt := hok rfl ha
    cases h1 with
    | early => exact ⟨h.le, fun _ => hlt⟩
    | off => exact ⟨h.le, by simp⟩
    | new => exact .new hlt rfl (by simp)
  | inact => exact ⟨h.le, by simp⟩
  | srv n s' r h1 =>
    cases h1 with
    | typ => exact h
    | val => exact h
    | ok new k deps hnew hag hkl h2 h3 => exact ⟨h.le, h.act⟩
  | delay t kb s' h1 =>
    cases h1 with
    | none => exact h
    | some a rest deps _ _ _ h4 h2 h3 => exact ⟨h.le, h.act⟩
  | collect => exact ⟨h.le, h.act⟩
  | noteFull => exact ⟨h.le, h.act⟩
  | noteOpen => exact h
  | clearData => exact ⟨h.le, h.act⟩
  | clear =>
    rw [clear_simple c s hk]
    refine ⟨?_, by simp⟩
    cases hc : c.activeCap with
    | inf => rfl
    | fin m => rw [hc] at h1; simp [Cap.le] at h1 ⊢; omega
  | handover a arr h1 h2 h3 => exact ⟨h.le, h.act⟩

theorem Reach.capInv {c : QCfg T} {b : Bool} {ok : QS T → QOp T → Prop} {s : QS T} (hk : Simple c)
    (h1 : c.activeCap.le 1 = true) (hok : ∀ s op, ok s op → CapOk c s op)
    (h : Reach c b ok s) : CapInv c s := by
  refine h.induct hk ?_ fun _ _ _ _ hi hx ho => hi.step hk h1 (hok _ _ hx) ho
  refine ⟨?_, by simp [QS.init]⟩
  cases hc : c.activeCap with
  | inf => rfl
  | fin m =>
    rw [hc] at h1
    have h2 : (1 : Int) ≤ m := by simpa [Cap.le] using h1
    show decide ((0 : Int) ≤ m) = true
    simp; omega

/-! ## The clock -/

/-- Agents are handed over no earlier than now, departures postponed to no earlier than now. -/
def ClockOk (s : QS T) : QOp T → Prop
  | .delay (some t) _ => s.currentT ≤ t
  | .handover a => s.currentT ≤ a.time
  | _ => True

/-- Nothing is scheduled in the past. -/
structure ClockInv (s : QS T) : Prop where
  arr : ∀ a ∈ agents s.arrivals, s.currentT ≤ a.time
  dep : ∀ a ∈ agents s.departures, s.currentT ≤ a.time

/-- `arrival_f(t) >= t` and `service_f(t) >= t`. -/
def Forward (c : QCfg T) : Prop := (∀ n t, t ≤ c.arrivalF n t) ∧ ∀ n t, t ≤ c.serviceF n t

theorem startServ_ge {c : QCfg T} (hf : Forward c) (n : Nat) (t : T) (l : List (Agent T)) :
    ∀ a ∈ startServ c n t l, t ≤ a.time := by
  induction l generalizing n with
  | nil => simp [startServ]
  | cons x l ih =>
    intro a ha
    simp only [startServ, List.mem_cons] at ha
    rcases ha with rfl | ha
    · exact hf.2 _ _
    · exact ih _ a ha

theorem ExtOut.ge {c : QCfg T} {s : QS T} {t : T} {ext : List (Agent T)} {ν : T} {act : Bool}
    {n : Nat} (hf : Forward c) (h : ExtOut c s t ext ν act n) : ∀ b ∈ ext, t ≤ b.time := by
  cases h with
  | inactive => simp
  | early => simp
  | off => simp
  | new _ _ h => simp; exact hf.1 _ _

theorem AddOut.ge {c : QCfg T} {s : QS T} {ext : List (Agent T)} {ν : T} {act : Bool}
    {n : Nat} (hf : Forward c) (h : AddOut c s ext ν act n) : ∀ b ∈ ext, s.currentT ≤ b.time := by
  cases h with
  | early => simp
  | off => simp
  | new _ h => simp; exact hf.1 _ _

theorem ClockInv.nextTime_ge {s : QS T} (hb : QBase s) (h : ClockInv s) : s.currentT ≤ nextTime s := by
  refine le_min ?_ ?_
  · rcases hb.okA.attained with h1 | ⟨a, ha, h1⟩
    · rw [h1]; exact le_top
    · rw [← h1]; exact h.arr a ha
  · rcases hb.okD.attained with h1 | ⟨a, ha, h1⟩
    · rw [h1]; exact le_top
    · rw [← h1]; exact h.dep a ha

theorem arrExt_ge {c : QCfg T} {s s' : QS T} {t : T} {rest : List (Slot T)} (hf : Forward c)
    (h : ExtSpec c s s' t rest) (hr : ∀ b ∈ agents rest, t ≤ b.time) :
    ∀ b ∈ agents s'.arrivals, t ≤ b.time := by
  obtain ⟨ext, e1, e2, -, -⟩ := h
  intro b hb
  rcases List.mem_append.mp (e2.mem_iff.mp hb) with hb | hb
  · exact e1.ge hf b hb
  · exact hr b hb

/-- One operation: the clock does not go back (unless cleared), and nothing is scheduled in the past. -/
theorem ClockInv.step {c : QCfg T} {s s' : QS T} {op : QOp T} (hk : Simple c) (hf : Forward c)
    (hb : QBase s) (h : ClockInv s) (hok : ClockOk s op) (ho : OpOut c s op s') :
    ClockInv s' ∧ (op ≠ .clear → s.currentT ≤ s'.currentT) := by
  cases ho with
  | ev s' r _ h1 =>
    cases h1 with
    | idle _ _ h2 => rw [h2]; exact ⟨h, fun _ => le_rfl⟩
    | dep a hlt h2 _ =>
      have hnow : s.currentT ≤ a.time := by
        rw [h2.time_eq]; exact (h.nextTime_ge hb).trans (min_le_right _ _)
      refine ⟨⟨?_, ?_⟩, fun _ => by rw [h2.currentT]; exact hnow⟩
      · rw [h2.arrivals, h2.currentT, h2.time_eq]
        intro b hb'; exact hlt.le.trans (hb.okA.le b hb')
      · rw [h2.currentT]
        obtain ⟨deps, g1, g2, g3⟩ := h2.served
        have hd : ∀ b ∈ agents deps, a.time ≤ b.time := by
          intro b hb'
          rw [h2.time_eq]; exact hb.okD.le b (g1.mem_iff.mpr (by simp [hb']))
        rcases g3 with ⟨b, rest, -, -, -, -, e4, -, -⟩ | ⟨-, -, -, e3, -, -⟩
        · intro x hx
          rcases List.mem_cons.mp (e4.mem_iff.mp hx) with rfl | hx
          · exact hf.2 _ _
          · exact hd x hx
        · rw [e3]; exact hd
    | arr a rest hle _ _ h2 _ =>
      have hnow : s.currentT ≤ a.time := by
        rw [h2.time_eq]; exact (h.nextTime_ge hb).trans (min_le_left _ _)
      have hr : ∀ b ∈ agents rest, a.time ≤ b.time := by
        intro b hb'
        rw [h2.time_eq]; exact hb.okA.le b (h2.perm.mem_iff.mpr (by simp [hb']))
      have hd : ∀ b ∈ agents s.departures, a.time ≤ b.time := by
        intro b hb'
        rw [h2.time_eq]; exact hle.trans (hb.okD.le b hb')
      refine ⟨⟨?_, ?_⟩, fun _ => by rw [h2.currentT]; exact hnow⟩
      · rw [h2.currentT]; exact arrExt_ge hf h2.ext hr
      · rw [h2.currentT]
        rcases h2.served with ⟨-, -, -, e3, -, -⟩ | ⟨-, -, -, e3, -, -⟩
        · intro x hx
          rcases List.mem_cons.mp (e3.mem_iff.mp hx) with rfl | hx
          · exact hf.2 _ _
          · exact hd x hx
        · rw [e3]; exact hd
    | block a rest hle _ _ _ h2 _ =>
      have hnow : s.currentT ≤ a.time := by
        rw [h2.time_eq]; exact (h.nextTime_ge hb).trans (min_le_left _ _)
      have hr : ∀ b ∈ agents rest, a.time ≤ b.time := by
        intro b hb'
        rw [h2.time_eq]; exact hb.okA.le b (h2.perm.mem_iff.mpr (by simp [hb']))
      refine ⟨⟨?_, ?_⟩, fun _ => by rw [h2.currentT]; exact hnow⟩
      · rw [h2.currentT]; exact arrExt_ge hf h2.ext hr
      · rw [h2.currentT, h2.departures]
        intro b hb'
        rw [h2.time_eq]; exact hle.trans (hb.okD.le b hb')
  | already => exact ⟨h, fun _ => le_rfl⟩
  | act arr ext ν act calls ha h1 h2 h3 =>
    refine ⟨⟨?_, h.dep⟩, fun _ => le_rfl⟩
    intro b hb'
    rcases List.mem_append.mp (h3.mem_iff.mp hb') with hb' | hb'
    · exact h1.ge hf b hb'
    · exact h.arr b hb'
  | inact => exact ⟨⟨h.arr, h.dep⟩, fun _ => le_rfl⟩
  | srv n s' r h1 =>
    cases h1 with
    | typ => exact ⟨h, fun _ => le_rfl⟩
    | val => exact ⟨h, fun _ => le_rfl⟩
    | ok new k deps hnew hag hkl h2 h3 =>
      refine ⟨⟨h.arr, ?_⟩, fun _ => le_rfl⟩
      intro b hb'
      rcases List.mem_append.mp (h3.mem_iff.mp hb') with hb' | hb'
      · exact startServ_ge hf _ _ _ b hb'
      · exact h.dep b hb'
  | delay t kb s' h1 =>
    cases h1 with
    | none => exact ⟨h, fun _ => le_rfl⟩
    | some a rest deps _ _ _ h4 h2 h3 =>
      refine ⟨⟨h.arr, ?_⟩, fun _ => le_rfl⟩
      intro b hb'
      rcases List.mem_cons.mp (h3.mem_iff.mp hb') with rfl | hb'
      · cases t with
        | none =>
          exact (h.dep a (h4.mem_iff.mpr (by simp))).trans (hf.2 _ _)
        | some t => exact hok
      · exact h.dep b (h4.mem_iff.mpr (by simp [hb']))
  | collect => exact ⟨⟨h.arr, h.dep⟩, fun _ => le_rfl⟩
  | noteFull => exact ⟨⟨h.arr, h.dep⟩, fun _ => le_rfl⟩
  | noteOpen => exact ⟨h, fun _ => le_rfl⟩
  | clearData => exact ⟨⟨h.arr, h.dep⟩, fun _ => le_rfl⟩
  | clear => rw [clear_simple c s hk]; exact ⟨⟨by simp, by simp⟩, by simp⟩
  | handover a arr h1 h2 h3 =>
    refine ⟨⟨?_, h.dep⟩, fun _ => le_rfl⟩
    intro b hb'
    rcases List.mem_cons.mp (h2.mem_iff.mp hb') with rfl | hb'
    · exact hok
    · exact h.arr b hb'

theorem Reach.clock {c : QCfg T} {b : Bool} {ok : QS T → QOp T → Prop} {s : QS T} (hk : Simple c)
    (hf : Forward c) (hok : ∀ s op, ok s op → ClockOk s op)
    (h : Reach c b ok s) : ClockInv s := by
  refine h.induct hk ?_ fun _ _ _ hb hi hx ho => (hi.step hk hf hb (hok _ _ hx) ho).1
  constructor <;> simp [QS.init]

/-! ## Servers and capacity -/

/-- The number of servers is never lowered. -/
def NoLower (s : QS T) (op : QOp T) : Prop :=
  ∀ m, op = .setServers (.int m) → 0 < m → s.numServers.gt (.fin m) = false

theorem Cap.le_mono {n : Cap} {a b : Int} (h : n.le b = true) (hab : a ≤ b) : n.le a = true := by
  cases n with
  | inf => rfl
  | fin m => simp [Cap.le] at *; omega

/-- An event starts a service only if a server is free. -/
theorem EvOut.servers {c : QCfg T} {s s' : QS T} {r : Option (Agent T)} (h : QInv s)
    (hs : EvOut c s s' r) :
    (agents s'.departures).length ≤ (agents s.departures).length ∨
      s'.numServers.le (agents s'.departures).length = true := by
  have hsys := h.numSystem
  cases hs with
  | idle _ _ h2 => rw [h2]; exact .inl le_rfl
  | dep a hlt h2 _ =>
    left
    obtain ⟨deps, g1, g2, g3⟩ := h2.served
    have hl := g1.length_eq
    rcases g3 with ⟨b, rest, -, -, -, -, e4, -, -⟩ | ⟨-, -, -, e3, -, -⟩
    · have := e4.length_eq; simp at *; omega
    · rw [e3]; simp at hl; omega
  | arr a rest hle _ _ h2 _ =>
    rcases h2.served with ⟨e1, -, -, e3, -, -⟩ | ⟨-, -, -, e3, -, -⟩
    · right
      rw [h2.numServers]
      refine Cap.le_mono e1 ?_
      have := e3.length_eq
      simp only [List.length_cons] at this
      rw [this]; push_cast; omega
    · left; rw [e3]
  | block a rest hle _ _ _ h2 _ => left; rw [h2.departures]

/-- Invariant for C08. -/
def SrvInv (s : QS T) : Prop := s.numServers.le (agents s.departures).length = true

theorem SrvInv.step {c : QCfg T} {s s' : QS T} {op : QOp T} (hk : Simple c)
    (hq : QInv s) (h : SrvInv s) (hok : NoLower s op) (ho : OpOut c s op s') : SrvInv s' := by
  unfold SrvInv at *
  cases ho with
  | ev s' r _ h1 =>
    have hns : s'.numServers = s.numServers := by
      cases h1 with
      | idle _ _ h2 => rw [h2]
      | dep a hlt h2 _ => exact h2.numServers
      | arr a rest hle _ _ h2 _ => exact h2.numServers
      | block a rest hle _ _ _ h2 _ => exact h2.numServers
    rcases h1.servers hq with h2 | h2
    · rw [hns]; exact Cap.le_mono h (by exact_mod_cast h2)
    · exact h2
  | already => exact h
  | act arr ext ν act calls ha h1 h2 h3 => exact h
  | inact => exact h
  | srv n s' r h1 =>
    cases h1 with
    | typ => exact h
    | val => exact h
    | ok new k deps hnew hag hkl h2 h3 =>
      have hl := h3.length_eq
      simp only [List.length_append, startServ_length, List.length_take, Nat.min_eq_left hkl] at hl
      simp only
      rw [hl]
      rcases hnew with ⟨m, rfl, hm, rfl⟩ | ⟨-, rfl⟩
      · have hg := hok m rfl hm
        cases hs : s.numServers with
        | inf => rw [hs] at hg; simp [Cap.gt] at hg
        | fin o =>
          rw [hs] at hg hag h
          simp only [Cap.gt, decide_eq_false_iff_not, not_lt] at hg
          simp only [agentsToQueue, Option.some.injEq] at hag
          simp only [Cap.le, decide_eq_true_eq] at h ⊢
          omega
      · rfl
  | delay t kb s' h1 =>
    cases h1 with
    | none => exact h
    | some a rest deps _ _ _ h4 h2 h3 =>
      have hl := h3.length_eq
      have hl' := h4.length_eq
      simp only [List.length_cons] at hl hl'
      simp only
      rw [hl, ← hl']; exact h
  | collect => exact h
  | noteFull => exact h
  | noteOpen => exact h
  | clearData => exact h
  | clear =>
    rw [clear_simple c s hk]
    exact Cap.le_mono h (by simp)
  | handover a arr h1 h2 h3 => exact h

theorem Reach.srvInv {c : QCfg T} {b : Bool} {ok : QS T → QOp T → Prop} {s : QS T} (hk : Simple c)
    (h0 : c.servers.le 0 = true) (hok : ∀ s op, ok s op → NoLower s op)
    (h : Reach c b ok s) : SrvInv s := by
  have : Reach c b ok s → SrvInv s ∧ QInv s := fun h => by
    refine h.induct (P := fun s => SrvInv s ∧ QInv s) hk ⟨?_, QInv.init c b⟩
      fun _ _ _ hb hi hx ho => ⟨hi.1.step hk hi.2 (hok _ _ hx) ho, hi.2.step hk hb ho⟩
    exact h0
  exact (this h).1

/-- Invariant for C22. -/
def RoomInv (c : QCfg T) (s : QS T) : Prop := (s.numServers.add c.buffer).le s.numSystem = true

theorem RoomInv.step {c : QCfg T} {s s' : QS T} {op : QOp T} (hk : c.kind = .loss)
    (hq : QInv s) (h : RoomInv c s) (hok : NoLower s op) (ho : OpOut c s op s') : RoomInv c s' := by
  unfold RoomInv at *
  cases ho with
  | ev s' r _ h1 =>
    cases h1 with
    | idle _ _ h2 => rw [h2]; exact h
    | dep a hlt h2 _ =>
      rw [h2.numServers, h2.numSystem]; exact Cap.le_mono h (by omega)
    | arr a rest hle _ hc h2 _ =>
      rw [h2.numServers, h2.numSystem, Cap.le_eq_lt]; exact hc hk
    | block a rest hle _ _ _ h2 _ =>
      rw [h2.numServers, h2.numSystem]; exact h
  | already => exact h
  | act arr ext ν act calls ha h1 h2 h3 => exact h
  | inact => exact h
  | srv n s' r h1 =>
    cases h1 with
    | typ => exact h
    | val => exact h
    | ok new k deps hnew hag hkl h2 h3 =>
      simp only
      rcases hnew with ⟨m, rfl, hm, rfl⟩ | ⟨-, rfl⟩
      · have hg := hok m rfl hm
        cases hs : s.numServers with
        | inf => rw [hs] at hg; simp [Cap.gt] at hg
        | fin o =>
          rw [hs] at hg h
          cases hbuf : c.buffer with
          | inf => simp [Cap.add, Cap.le]
          | fin bb =>
            rw [hbuf] at h
            simp only [Cap.gt, decide_eq_false_iff_not, not_lt] at hg
            simp only [Cap.add, Cap.le, decide_eq_true_eq] at h ⊢
            omega
      · simp [Cap.add, Cap.le]
  | delay t kb s' h1 =>
    cases h1 with
    | none => exact h
    | some a rest deps _ _ _ h4 h2 h3 => exact h
  | collect => exact h
  | noteFull => exact h
  | noteOpen => exact h
  | clearData => exact h
  | clear =>
    rw [clear_simple c s (.inr hk)]
    have := hq.numSystem
    exact Cap.le_mono h (by simp only; omega)
  | handover a arr h1 h2 h3 => exact h

theorem Reach.roomInv {c : QCfg T} {b : Bool} {ok : QS T → QOp T → Prop} {s : QS T} (hk : c.kind = .loss)
    (h0 : (c.servers.add c.buffer).le 0 = true) (hok : ∀ s op, ok s op → NoLower s op)
    (h : Reach c b ok s) : RoomInv c s := by
  have : Reach c b ok s → RoomInv c s ∧ QInv s := fun h => by
    refine h.induct (P := fun s => RoomInv c s ∧ QInv s) (.inr hk) ⟨?_, QInv.init c b⟩
      fun _ _ _ hb hi hx ho => ⟨hi.1.step hk hi.2 (hok _ _ hx) ho, hi.2.step (.inr hk) hb ho⟩
    exact h0
  exact (this h).1

end Verif
