import Verif.QueueInv2
import Mathlib.Data.List.Nodup

/-! # Order of `queue_action` calls, the outside stream, recorded data (proof support) -/

set_option linter.unusedSectionVars false
set_option linter.unusedSimpArgs false
set_option linter.unusedVariables false

namespace Verif

variable {T : Type*} [LinearOrder T] [OrderTop T] [Zero T]

/-! ## Order of the calls -/

/-- For every agent: at most as many ends as starts, and at most as many starts as admissions. -/
def LogOk (l : List ((Nat × Nat) × Nat)) : Prop :=
  ∀ x, l.count (x, 2) ≤ l.count (x, 1) ∧ l.count (x, 1) ≤ l.count (x, 0)

/-- ... at every moment. -/
def PrefOk (l : List ((Nat × Nat) × Nat)) : Prop := ∀ p, p <+: l → LogOk p

theorem stageIds_count (n : Nat) (l : List ((Nat × Nat) × Nat)) (x : Nat × Nat) :
    (stageIds n l).count x = l.count (x, n) := by
  induction l with
  | nil => rfl
  | cons p l ih =>
    obtain ⟨y, m⟩ := p
    simp only [stageIds_cons, List.count_append, ih, List.count_cons]
    by_cases h1 : m = n <;> by_cases h2 : y = x <;> simp [h1, h2, Nat.add_comm]

theorem QInv.logOk {s : QS T} (h : QInv s) : LogOk s.log := by
  intro x
  have h1 := congrArg (List.count x) h.fifo
  have h2 := h.once.count_eq x
  simp only [List.count_append, stageIds_count] at h1 h2
  omega

theorem PrefOk.append {l m : List ((Nat × Nat) × Nat)} (h : PrefOk l)
    (hm : ∀ p, p <+: m → LogOk (l ++ p)) : PrefOk (l ++ m) := by
  intro p hp
  rcases List.prefix_or_prefix_of_prefix hp (List.prefix_append l m) with h1 | h1
  · exact h p h1
  · obtain ⟨q, rfl⟩ := h1
    exact hm q ((List.prefix_append_right_inj l).mp hp)

theorem prefix_one {α : Type*} {p : List α} {a : α} (h : p <+: [a]) : p = [] ∨ p = [a] := by
  rcases p with _ | ⟨x, p⟩
  · exact .inl rfl
  · obtain ⟨q, hq⟩ := h
    simp at hq
    right; simp [hq]

theorem prefix_two {α : Type*} {p : List α} {a b : α} (h : p <+: [a, b]) :
    p = [] ∨ p = [a] ∨ p = [a, b] := by
  rcases p with _ | ⟨x, p⟩
  · exact .inl rfl
  · have := List.cons_prefix_cons.mp h
    obtain ⟨rfl, h2⟩ := this
    rcases prefix_one h2 with rfl | rfl <;> simp

theorem PrefOk.one {l : List ((Nat × Nat) × Nat)} {e : (Nat × Nat) × Nat} (h : PrefOk l)
    (h1 : LogOk (l ++ [e])) : PrefOk (l ++ [e]) := by
  refine h.append fun p hp => ?_
  rcases prefix_one hp with rfl | rfl
  · rw [List.append_nil]; exact h l (List.prefix_refl l)
  · exact h1

theorem PrefOk.many {l : List ((Nat × Nat) × Nat)} {m : List (Nat × Nat)} (h : PrefOk l)
    (h1 : LogOk (l ++ m.map fun x => (x, 1))) : PrefOk (l ++ m.map fun x => (x, 1)) := by
  refine h.append fun p hp => ?_
  intro x
  have e : ∀ (m : List (Nat × Nat)) n, n ≠ 1 → (m.map fun x => (x, 1)).count (x, n) = 0 := by
    intro m n hn
    rw [List.count_eq_zero]
    simp [Ne.symm hn]
  have hl := h l (List.prefix_refl l) x
  have hf := h1 x
  obtain ⟨q, hq⟩ := hp
  have e2 := congrArg (List.count (x, 2)) hq
  have e1 := congrArg (List.count (x, 1)) hq
  have e0 := congrArg (List.count (x, 0)) hq
  rw [List.count_append, e m 2 (by simp)] at e2
  rw [List.count_append, e m 0 (by simp)] at e0
  rw [List.count_append] at e1
  simp only [List.count_append, e m 2 (by simp), e m 0 (by simp)] at hf ⊢
  omega

theorem PrefOk.step {c : QCfg T} {s s' : QS T} {op : QOp T} (hk : Simple c)
    (hq : QInv s) (hq' : QInv s') (h : PrefOk s.log) (ho : OpOut c s op s') : PrefOk s'.log := by
  have hl := hq'.logOk
  cases ho with
  | ev s' r _ h1 =>
    cases h1 with
    | idle _ _ h2 => rw [h2]; exact h
    | dep a hlt h2 _ =>
      obtain ⟨deps, g1, g2, g3⟩ := h2.served
      rcases g3 with ⟨b, rest, -, -, -, -, -, e4, -⟩ | ⟨-, -, -, -, e3, -⟩
      · rw [e4] at hl ⊢
        refine h.append fun p hp => ?_
        rcases prefix_two hp with rfl | rfl | rfl
        · rw [List.append_nil]; exact hq.logOk
        · intro x
          have h1 := hl x
          have h2 := hq.logOk x
          simp only [List.count_append, List.count_cons, List.count_nil] at h1 ⊢
          simp at h1 ⊢
          omega
        · exact hl
      · rw [e3] at hl ⊢; exact h.one hl
    | arr a rest hle _ _ h2 _ =>
      rcases h2.served with ⟨-, -, -, -, e3, -⟩ | ⟨-, -, -, -, e3, -⟩
      · rw [e3] at hl ⊢
        refine h.append fun p hp => ?_
        rcases prefix_two hp with rfl | rfl | rfl
        · rw [List.append_nil]; exact hq.logOk
        · intro x
          have h2 := hq.logOk x
          simp only [List.count_append, List.count_cons, List.count_nil]
          simp
          omega
        · exact hl
      · rw [e3] at hl ⊢; exact h.one hl
    | block a rest hle _ _ _ h2 _ => rw [h2.log]; exact h
  | already => exact h
  | act arr ext ν act calls ha h1 h2 h3 => exact h
  | inact => exact h
  | srv n s' r h1 =>
    cases h1 with
    | typ => exact h
    | val => exact h
    | ok new k deps hnew hag hkl h2 h3 =>
      have e : (s.queue.take k).map (fun a => (a.id, 1))
          = ((s.queue.take k).map (·.id)).map fun x => (x, 1) := by rw [List.map_map]; rfl
      simp only [e] at hl ⊢
      exact h.many hl
  | delay t kb s' h1 =>
    cases h1 with
    | none => exact h
    | some a rest deps _ _ _ h4 h2 h3 => exact h
  | collect => exact h
  | noteFull => exact h
  | noteOpen => exact h
  | clearData => exact h
  | clear =>
    rw [clear_simple c s hk]
    intro p hp
    simp at hp; subst hp; intro x; simp
  | handover a arr h1 h2 h3 => exact h

theorem Reach.prefOk {c : QCfg T} {b : Bool} {ok : QS T → QOp T → Prop} {s : QS T} (hk : Simple c)
    (h : Reach c b ok s) : PrefOk s.log := by
  have : PrefOk s.log ∧ QInv s := by
    refine h.induct (P := fun s => PrefOk s.log ∧ QInv s) hk ⟨?_, QInv.init c b⟩
      fun _ _ _ hb hi _ ho => ⟨hi.1.step hk hi.2 (hi.2.step hk hb ho) ho, hi.2.step hk hb ho⟩
    intro p hp
    simp [QS.init] at hp; subst hp; intro x; simp
  exact this.1

/-! ## The outside stream -/

/-- A scheduled agent that this queue created and that has not been here yet. -/
def Own (c : QCfg T) (s : QS T) (a : Agent T) : Bool :=
  decide (a.id.1 = c.edge.idx ∧ (a.id, 0) ∉ s.log)

/-- The queue's own scheduled arrivals. -/
def ownScheduled (c : QCfg T) (s : QS T) : List (Agent T) := (agents s.arrivals).filter (Own c s)

/-- Handed-over agents that were created here have been here; no event is processed while a
handed-over agent's arrival time equals that of the queue's own next arrival. -/
def StreamOk (c : QCfg T) (s : QS T) : QOp T → Prop
  | .next => ∀ a ∈ agents s.arrivals, ∀ b ∈ agents s.arrivals, Own c s a = false → Own c s b = true →
      a.time ≠ b.time
  | .handover a => a.id.1 = c.edge.idx → (a.id, 0) ∈ s.log
  | _ => True

/-- Inter-arrival times are positive. -/
def Strict (c : QCfg T) : Prop := ∀ n t, t < ⊤ → t < c.arrivalF n t

structure OwnInv (c : QCfg T) (s : QS T) : Prop where
  one : (ownScheduled c s).length ≤ 1
  pend : ∀ a ∈ ownScheduled c s, a.time = s.nextCt ∧ s.currentT < s.nextCt
  idsArr : ∀ a ∈ agents s.arrivals, a.id.1 = c.edge.idx → a.id.2 < s.oArrivals
  idsLog : ∀ x, (x, 0) ∈ s.log → x.1 = c.edge.idx → x.2 < s.oArrivals
  fin : s.currentT < ⊤

theorem ownScheduled_mem {c : QCfg T} {s : QS T} {a : Agent T} :
    a ∈ ownScheduled c s ↔ a ∈ agents s.arrivals ∧ Own c s a = true := by
  unfold ownScheduled; rw [List.mem_filter]

theorem Own.mono {c : QCfg T} {s s' : QS T} (hl : ∀ x, x ∈ s.log → x ∈ s'.log) {a : Agent T}
    (h : Own c s' a = true) : Own c s a = true := by
  simp only [Own, decide_eq_true_eq] at *
  exact ⟨h.1, fun hx => h.2 (hl _ hx)⟩

/-- A processed arrival: keeps the invariant. -/
theorem OwnInv.arrived {c : QCfg T} {s s' : QS T} {a : Agent T} {rest : List (Slot T)}
    (hstr : Strict c) (h : OwnInv c s) (hok : StreamOk c s .next)
    (hp : (agents s.arrivals).Perm (a :: agents rest))
    (hmin : ∀ b ∈ agents s.arrivals, a.time ≤ b.time) (hfin : a.time < ⊤)
    (hext : ExtSpec c s s' a.time rest) (ht : s'.currentT = a.time)
    (hl : ∀ x, x ∈ s.log → x ∈ s'.log)
    (hl' : ∀ x, (x, 0) ∈ s'.log → (x, 0) ∈ s.log ∨ x = a.id) : OwnInv c s' := by
  have hamem : a ∈ agents s.arrivals := hp.mem_iff.mpr (by simp)
  have hperm : (ownScheduled c s).Perm ((a :: agents rest).filter (Own c s)) := hp.filter _
  -- anything of our own still pending is later than `a`
  have key : ∀ b ∈ agents rest, Own c s b = true → a.time < b.time ∧ b.time = s.nextCt := by
    intro b hb hob
    have hbm : b ∈ agents s.arrivals := hp.mem_iff.mpr (by simp [hb])
    have hbo : b ∈ ownScheduled c s := ownScheduled_mem.mpr ⟨hbm, hob⟩
    refine ⟨lt_of_le_of_ne (hmin b hbm) ?_, (h.pend b hbo).1⟩
    cases hoa : Own c s a with
    | false => exact hok a hamem b hbm hoa hob
    | true =>
      exfalso
      have h1 := hperm.length_eq
      rw [List.filter_cons_of_pos hoa] at h1
      have h2 : 0 < ((agents rest).filter (Own c s)).length :=
        List.length_pos_of_mem (List.mem_filter.mpr ⟨hb, hob⟩)
      simp only [List.length_cons] at h1
      have := h.one
      omega
  have hrest : ((agents rest).filter (Own c s)).length ≤ 1 := by
    have h1 := hperm.length_eq
    have h2 := h.one
    by_cases hoa : Own c s a = true
    · rw [List.filter_cons_of_pos hoa, List.length_cons] at h1; omega
    · rw [List.filter_cons_of_neg hoa] at h1; omega
  obtain ⟨ext, e1, e2, e3, e4⟩ := hext
  have hmono : ∀ b, Own c s' b = true → Own c s b = true := fun b hb => Own.mono hl hb
  have hlen : (ownScheduled c s').length ≤ (ext.filter (Own c s)).length +
      ((agents rest).filter (Own c s)).length := by
    unfold ownScheduled
    rw [(e2.filter _).length_eq, List.filter_append, List.length_append]
    refine Nat.add_le_add ?_ ?_ <;>
    · rw [← List.countP_eq_length_filter, ← List.countP_eq_length_filter]
      exact List.countP_mono_left fun x _ => hmono x
  have hmem : ∀ b ∈ ownScheduled c s', b ∈ ext ∨ (b ∈ agents rest ∧ Own c s b = true) := by
    intro b hb
    obtain ⟨h1, h2⟩ := ownScheduled_mem.mp hb
    rcases List.mem_append.mp (e2.mem_iff.mp h1) with h1 | h1
    · exact .inl h1
    · exact .inr ⟨h1, hmono b h2⟩
  have idsA : ∀ b ∈ agents s'.arrivals, b.id.1 = c.edge.idx → b.id.2 < s'.oArrivals := by
    intro b hb hid
    rcases List.mem_append.mp (e2.mem_iff.mp hb) with h1 | h1
    · rcases e1.shape with rfl | ⟨b', rfl, h2, -⟩
      · simp at h1
      · simp at h1; subst h1; rw [h2, e3]; simp
    · have := h.idsArr b (hp.mem_iff.mpr (by simp [h1])) hid
      omega
  have idsL : ∀ x, (x, 0) ∈ s'.log → x.1 = c.edge.idx → x.2 < s'.oArrivals := by
    intro x hx hid
    rcases hl' x hx with h1 | rfl
    · have := h.idsLog x h1 hid; omega
    · have := h.idsArr a hamem hid; omega
  refine ⟨?_, ?_, idsA, idsL, by rw [ht]; exact hfin⟩
  · generalize hν : s'.nextCt = ν at e1
    generalize hα : s'.active = α at e1
    generalize hn : s'.arrCalls = n at e1
    cases e1 with
    | inactive => simp at hlen; omega
    | early => simp at hlen; omega
    | off => simp at hlen; omega
    | new h1 h2 h3 =>
      have hempty : (agents rest).filter (Own c s) = [] := by
        rw [List.filter_eq_nil_iff]
        intro b hb hob
        obtain ⟨k1, k2⟩ := key b hb hob
        rw [k2] at k1
        exact absurd h2 (not_le.mpr k1)
      rw [hempty] at hlen
      exact hlen.trans (List.length_filter_le (Own c s) _)
  · intro b hb
    rw [ht]
    generalize hν : s'.nextCt = ν at e1 ⊢
    generalize hα : s'.active = α at e1
    generalize hn : s'.arrCalls = n at e1
    have hold : b ∈ agents rest ∧ Own c s b = true → b.time = s.nextCt ∧ a.time < s.nextCt := by
      rintro ⟨h1, h2⟩
      obtain ⟨k1, k2⟩ := key b h1 h2
      exact ⟨k2, k2 ▸ k1⟩
    cases e1 with
    | inactive =>
      rcases hmem b hb with h1 | h1
      · simp at h1
      · exact hold h1
    | early =>
      rcases hmem b hb with h1 | h1
      · simp at h1
      · exact hold h1
    | off h0 h2 h3 =>
      rcases hmem b hb with h1 | h1
      · simp at h1
      · exact absurd h2 (not_le.mpr (hold h1).2)
    | new h0 h2 h3 =>
      rcases hmem b hb with h1 | h1
      · simp at h1; subst h1
        exact ⟨rfl, hstr _ _ hfin⟩
      · exact absurd h2 (not_le.mpr (hold h1).2)

theorem OwnInv.step {c : QCfg T} {s s' : QS T} {op : QOp T} (hk : Simple c) (hstr : Strict c)
    (h0 : (0 : T) < ⊤) (hb : QBase s) (h : OwnInv c s) (hok : StreamOk c s op)
    (ho : OpOut c s op s') : OwnInv c s' := by
  -- operations that only add log entries of other stages
  have logOnly : ∀ s' : QS T, s'.arrivals = s.arrivals → s'.nextCt = s.nextCt →
      s'.oArrivals = s.oArrivals → s'.currentT = s.currentT →
      (∃ m : List ((Nat × Nat) × Nat), s'.log = s.log ++ m ∧ ∀ x, (x, 0) ∉ m) → OwnInv c s' := by
    rintro s' e1 e2 e3 e4 ⟨m, e5, e6⟩
    have hown : ownScheduled c s' = ownScheduled c s := by
      unfold ownScheduled
      rw [e1]
      congr 1
      funext a
      simp only [Own, e5, List.mem_append, e6, or_false]
    refine ⟨by rw [hown]; exact h.one, by rw [hown, e2, e4]; exact h.pend,
      by rw [e1, e3]; exact h.idsArr, ?_, by rw [e4]; exact h.fin⟩
    intro x hx
    rw [e3]
    rw [e5] at hx
    rcases List.mem_append.mp hx with hx | hx
    · exact h.idsLog x hx
    · exact absurd hx (e6 x)
  cases ho with
  | ev s' r _ h1 =>
    cases h1 with
    | idle _ _ h2 => rw [h2]; exact h
    | dep a hlt h2 _ =>
      obtain ⟨m, e5, e6⟩ : ∃ m : List ((Nat × Nat) × Nat), s'.log = s.log ++ m ∧ ∀ x, (x, 0) ∉ m := by
        obtain ⟨deps, g1, g2, g3⟩ := h2.served
        rcases g3 with ⟨b, rest, -, -, -, -, -, e4, -⟩ | ⟨-, -, -, -, e3, -⟩
        · exact ⟨_, e4, by simp⟩
        · exact ⟨_, e3, by simp⟩
      have hown : ownScheduled c s' = ownScheduled c s := by
        unfold ownScheduled
        rw [h2.arrivals]
        congr 1
        funext a
        simp only [Own, e5, List.mem_append, e6, or_false]
      refine ⟨by rw [hown]; exact h.one, ?_, by rw [h2.arrivals, h2.oArrivals]; exact h.idsArr, ?_, ?_⟩
      · rw [hown, h2.nextCt, h2.currentT, h2.time_eq]
        intro b hb'
        refine ⟨(h.pend b hb').1, ?_⟩
        rw [← (h.pend b hb').1]
        exact hlt.trans_le (hb.okA.le b (ownScheduled_mem.mp hb').1)
      · intro x hx
        rw [h2.oArrivals]
        rw [e5] at hx
        rcases List.mem_append.mp hx with hx | hx
        · exact h.idsLog x hx
        · exact absurd hx (e6 x)
      · rw [h2.currentT, h2.time_eq]; exact hlt.trans_le le_top
    | arr a rest hle hfin _ h2 _ =>
      refine h.arrived hstr hok h2.perm ?_ (by rw [h2.time_eq]; exact hfin) h2.ext h2.currentT ?_ ?_
      · rw [h2.time_eq]; exact hb.okA.le
      · rcases h2.served with ⟨-, -, -, -, e3, -⟩ | ⟨-, -, -, -, e3, -⟩ <;> rw [e3] <;>
          intro x hx <;> exact List.mem_append.mpr (.inl hx)
      · rcases h2.served with ⟨-, -, -, -, e3, -⟩ | ⟨-, -, -, -, e3, -⟩ <;> rw [e3] <;>
          intro x hx <;> simpa using hx
    | block a rest hle hfin _ _ h2 _ =>
      refine h.arrived hstr hok h2.perm ?_ (by rw [h2.time_eq]; exact hfin) h2.ext h2.currentT ?_ ?_
      · rw [h2.time_eq]; exact hb.okA.le
      · rw [h2.log]; exact fun x hx => hx
      · rw [h2.log]; exact fun x hx => .inl hx
  | already => exact h
  | act arr ext ν act calls ha h1 h2 h3 =>
    have hlen : (((agents arr).filter (Own c s)).length) =
        (ext.filter (Own c s)).length + (ownScheduled c s).length := by
      rw [(h3.filter _).length_eq, List.filter_append, List.length_append]; rfl
    have idsA : ∀ b ∈ agents arr, b.id.1 = c.edge.idx → b.id.2 < s.oArrivals + ext.length := by
      intro b hb hid
      rcases List.mem_append.mp (h3.mem_iff.mp hb) with g1 | g1
      · rcases h1.shape with rfl | ⟨b', rfl, g2, -⟩
        · simp at g1
        · simp at g1; subst g1; rw [g2]; simp
      · have := h.idsArr b g1 hid
        omega
    have idsL : ∀ x, (x, 0) ∈ s.log → x.1 = c.edge.idx → x.2 < s.oArrivals + ext.length := by
      intro x hx hid; have := h.idsLog x hx hid; omega
    have hmem : ∀ b ∈ (agents arr).filter (Own c s), b ∈ ext ∨ b ∈ ownScheduled c s := by
      intro b hb
      obtain ⟨g1, g2⟩ := List.mem_filter.mp hb
      rcases List.mem_append.mp (h3.mem_iff.mp g1) with g1 | g1
      · exact .inl g1
      · exact .inr (ownScheduled_mem.mpr ⟨g1, g2⟩)
    refine ⟨?_, ?_, idsA, idsL, h.fin⟩
    · show ((agents arr).filter (Own c s)).length ≤ 1
      rw [hlen]
      cases h1 with
      | early => simpa using h.one
      | off => simpa using h.one
      | new g1 g2 =>
        have he : ownScheduled c s = [] := by
          rw [List.eq_nil_iff_forall_not_mem]
          intro b hb
          exact absurd g1 (not_le.mpr (h.pend b hb).2)
        rw [he]
        exact (List.length_filter_le (Own c s) _)
    · show ∀ b ∈ (agents arr).filter (Own c s), b.time = ν ∧ s.currentT < ν
      intro b hb
      rcases hmem b hb with g | g
      · cases h1 with
        | early => simp at g
        | off => simp at g
        | new g1 g2 => simp at g; subst g; exact ⟨rfl, hstr _ _ h.fin⟩
      · cases h1 with
        | early => exact h.pend b g
        | off g1 => exact absurd g1 (not_le.mpr (h.pend b g).2)
        | new g1 g2 => exact absurd g1 (not_le.mpr (h.pend b g).2)
  | inact => exact logOnly _ rfl rfl rfl rfl ⟨[], by simp, by simp⟩
  | srv n s' r h1 =>
    cases h1 with
    | typ => exact h
    | val => exact h
    | ok new k deps hnew hag hkl h2 h3 =>
      exact logOnly _ rfl rfl rfl rfl ⟨_, rfl, by
        intro x hx; obtain ⟨y, -, hy⟩ := List.mem_map.mp hx; simp at hy⟩
  | delay t kb s' h1 =>
    cases h1 with
    | none => exact h
    | some a rest deps _ _ _ h4 h2 h3 => exact logOnly _ rfl rfl rfl rfl ⟨[], by simp, by simp⟩
  | collect => exact logOnly _ rfl rfl rfl rfl ⟨[], by simp, by simp⟩
  | noteFull => exact logOnly _ rfl rfl rfl rfl ⟨[], by simp, by simp⟩
  | noteOpen => exact h
  | clearData => exact logOnly _ rfl rfl rfl rfl ⟨[], by simp, by simp⟩
  | clear =>
    rw [clear_simple c s hk]
    exact ⟨by simp [ownScheduled], by simp [ownScheduled], by simp, by simp, h0⟩
  | handover a arr h1 h2 h3 =>
    have hoa : Own c s a = false := by
      simp only [Own, decide_eq_false_iff_not, not_and, not_not]
      exact hok
    have hown : ((agents arr).filter (Own c s)).Perm (ownScheduled c s) := by
      refine (h2.filter _).trans ?_
      rw [List.filter_cons_of_neg (by simp [hoa])]
      exact List.Perm.refl _
    refine ⟨?_, ?_, ?_, h.idsLog, h.fin⟩
    · show ((agents arr).filter (Own c s)).length ≤ 1
      rw [hown.length_eq]; exact h.one
    · show ∀ b ∈ (agents arr).filter (Own c s), b.time = s.nextCt ∧ s.currentT < s.nextCt
      intro b hb
      exact h.pend b (hown.mem_iff.mp hb)
    · intro b hb hid
      rcases List.mem_cons.mp (h2.mem_iff.mp hb) with rfl | hb
      · exact h.idsLog _ (hok hid) hid
      · exact h.idsArr b hb hid

theorem Reach.ownInv {c : QCfg T} {b : Bool} {ok : QS T → QOp T → Prop} {s : QS T} (hk : Simple c)
    (hstr : Strict c) (h0 : (0 : T) < ⊤) (hok : ∀ s op, ok s op → StreamOk c s op)
    (h : Reach c b ok s) : OwnInv c s := by
  refine h.induct hk ?_ fun _ _ _ hb hi hx ho => hi.step hk hstr h0 hb (hok _ _ hx) ho
  exact ⟨by simp [ownScheduled, QS.init], by simp [ownScheduled, QS.init], by simp [QS.init],
    by simp [QS.init], h0⟩

/-! ## Recorded data -/

/-- `data[id]` (empty if absent). -/
def Data.rows (d : Data T) (x : Nat × Nat) : List (Row T) :=
  match d with
  | [] => []
  | (i, rs) :: rest => if i = x then rs else Data.rows rest x

/-- Total number of rows. -/
def Data.count (d : Data T) : Nat := (d.map fun p => p.2.length).sum

theorem Data.rows_append (d : Data T) (x y : Nat × Nat) (r : Row T) :
    (d.append x r).rows y = if y = x then d.rows x ++ [r] else d.rows y := by
  induction d with
  | nil =>
    simp only [Data.append, Data.rows]
    by_cases h : y = x
    · simp [h]
    · simp [h, Ne.symm h]
  | cons p d ih =>
    obtain ⟨i, rs⟩ := p
    simp only [Data.append]
    by_cases h1 : i = x
    · subst h1
      simp only [if_true, Data.rows]
      by_cases h : y = i
      · simp [h]
      · simp [h, Ne.symm h]
    · simp only [h1, if_false, Data.rows, ih]
      by_cases h : y = x
      · subst h; simp [h1]
      · by_cases h2 : i = y
        · simp [h2, h]
        · simp [h2, h]

theorem Data.rows_modify (d : Data T) (x y : Nat × Nat) (f : Row T → Row T) :
    (d.modify x f).rows y = if y = x then modLast f (d.rows x) else d.rows y := by
  induction d with
  | nil => simp [Data.modify, Data.rows, modLast]
  | cons p d ih =>
    obtain ⟨i, rs⟩ := p
    simp only [Data.modify]
    by_cases h1 : i = x
    · subst h1
      simp only [if_true, Data.rows]
      by_cases h : y = i
      · simp [h]
      · simp [h, Ne.symm h]
    · simp only [h1, if_false, Data.rows, ih]
      by_cases h : y = x
      · subst h; simp [h1]
      · by_cases h2 : i = y
        · simp [h2, h]
        · simp [h2, h]

theorem modLast_snoc {α : Type*} (f : α → α) (l : List α) (x : α) :
    modLast f (l ++ [x]) = l ++ [f x] := by
  induction l with
  | nil => rfl
  | cons y l ih =>
    cases l with
    | nil => rfl
    | cons z l => simp only [List.cons_append, modLast] at ih ⊢; rw [ih]

theorem modLast_length {α : Type*} (f : α → α) (l : List α) : (modLast f l).length = l.length := by
  induction l with
  | nil => rfl
  | cons y l ih =>
    cases l with
    | nil => rfl
    | cons z l => simp only [modLast, List.length_cons] at ih ⊢; rw [ih]

theorem Data.count_append (d : Data T) (x : Nat × Nat) (r : Row T) :
    (d.append x r).count = d.count + 1 := by
  induction d with
  | nil => rfl
  | cons p d ih =>
    obtain ⟨i, rs⟩ := p
    simp only [Data.append]
    by_cases h1 : i = x
    · simp [h1, Data.count]; omega
    · simp only [h1, if_false]
      simp only [Data.count, List.map_cons, List.sum_cons] at ih ⊢
      omega

theorem Data.count_modify (d : Data T) (x : Nat × Nat) (f : Row T → Row T) :
    (d.modify x f).count = d.count := by
  induction d with
  | nil => rfl
  | cons p d ih =>
    obtain ⟨i, rs⟩ := p
    simp only [Data.modify]
    by_cases h1 : i = x
    · simp [h1, Data.count, modLast_length]
    · simp only [h1, if_false]
      simp only [Data.count, List.map_cons, List.sum_cons] at ih ⊢
      omega

theorem startData_count (t : T) (d : Data T) (l : List (Agent T)) :
    (startData t d l).count = d.count := by
  induction l generalizing d with
  | nil => rfl
  | cons a l ih => simp only [startData, ih, Data.count_modify]

/-- Data collection is never switched and data is not cleared (other than by `clear`). -/
def NoSwitch (op : QOp T) : Prop := (∀ b, op ≠ .collect b) ∧ op ≠ .clearData

/-- Invariant for C27. -/
structure RowsInv (c : QCfg T) (s : QS T) : Prop where
  on : s.collectData = true
  count : s.data.count = s.numArrivals + s.lost.length

theorem RowsInv.step {c : QCfg T} {s s' : QS T} {op : QOp T} (hk : Simple c)
    (h : RowsInv c s) (hok : NoSwitch op) (ho : OpOut c s op s') : RowsInv c s' := by
  have hon := h.on
  have hcnt := h.count
  cases ho with
  | ev s' r _ h1 =>
    cases h1 with
    | idle _ _ h2 => rw [h2]; exact h
    | dep a hlt h2 _ =>
      refine ⟨by rw [h2.collectData]; exact hon, ?_⟩
      rw [h2.numArrivals, h2.lost, ← hcnt]
      obtain ⟨deps, g1, g2, g3⟩ := h2.served
      rcases g3 with ⟨b, rest, -, -, -, -, -, -, e4⟩ | ⟨-, -, -, -, -, e4⟩
      · rw [e4, hon, if_pos rfl, Data.count_modify, Data.count_modify]
      · rw [e4, hon, if_pos rfl, Data.count_modify]
    | arr a rest hle _ _ h2 _ =>
      refine ⟨by rw [h2.collectData]; exact hon, ?_⟩
      rw [h2.numArrivals, h2.lost]
      rcases h2.served with ⟨-, -, -, -, -, e4⟩ | ⟨-, -, -, -, -, e4⟩
      · rw [e4, hon, if_pos rfl, Data.count_modify, Data.count_append]; omega
      · rw [e4, hon, if_pos rfl, Data.count_append]; omega
    | block a rest hle _ hl _ h2 _ =>
      refine ⟨by rw [h2.collectData]; exact hon, ?_⟩
      rw [h2.numArrivals, h2.lost, h2.data, hon, if_pos rfl, Data.count_append]; simp; omega
  | already => exact h
  | act arr ext ν act calls ha h1 h2 h3 => exact ⟨hon, hcnt⟩
  | inact => exact ⟨hon, hcnt⟩
  | srv n s' r h1 =>
    cases h1 with
    | typ => exact h
    | val => exact h
    | ok new k deps hnew hag hkl h2 h3 =>
      refine ⟨hon, ?_⟩
      simp only [hon, if_true, startData_count]; exact hcnt
  | delay t kb s' h1 =>
    cases h1 with
    | none => exact h
    | some a rest deps _ _ _ h4 h2 h3 => exact ⟨hon, hcnt⟩
  | collect b => exact absurd rfl (hok.1 b)
  | noteFull => exact ⟨hon, hcnt⟩
  | noteOpen => exact h
  | clearData => exact absurd rfl hok.2
  | clear =>
    rw [clear_simple c s hk]
    exact ⟨hon, rfl⟩
  | handover a arr h1 h2 h3 => exact ⟨hon, hcnt⟩

theorem Reach.rowsInv {c : QCfg T} {ok : QS T → QOp T → Prop} {s : QS T} (hk : Simple c)
    (hok : ∀ s op, ok s op → NoSwitch op) (h : Reach c true ok s) : RowsInv c s := by
  refine h.induct hk ?_ fun _ _ _ hb hi hx ho => hi.step hk (hok _ _ hx) ho
  exact ⟨rfl, rfl⟩

end Verif
