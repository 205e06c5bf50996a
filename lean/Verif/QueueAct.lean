import Verif.QueueInv3

/-! # The outside stream stays alive (proof support) -/

set_option linter.unusedSectionVars false
set_option linter.unusedSimpArgs false
set_option linter.unusedVariables false

namespace Verif

variable {T : Type*} [LinearOrder T] [OrderTop T] [Zero T]

/-- The agent created last is scheduled to arrive at the last time drawn. -/
def LastScheduled (c : QCfg T) (s : QS T) : Prop :=
  ∃ a ∈ agents s.arrivals, a.id = (c.edge.idx, s.oArrivals - 1) ∧ a.time = s.nextCt ∧ 0 < s.oArrivals

/-- While the queue is active its next own arrival is scheduled, unless the last time drawn was not
before `deactive_t`. -/
structure AliveInv (c : QCfg T) (s : QS T) : Prop where
  early : s.currentT < s.nextCt → c.deactiveT ≤ s.nextCt ∨ LastScheduled c s
  act : s.active = true → c.deactiveT ≤ s.nextCt ∨ LastScheduled c s

theorem AliveInv.arrived {c : QCfg T} {s s' : QS T} {a : Agent T} {rest : List (Slot T)}
    (h : AliveInv c s)
    (hp : (agents s.arrivals).Perm (a :: agents rest)) (hnow : s.currentT ≤ a.time)
    (hext : ExtSpec c s s' a.time rest) (ht : s'.currentT = a.time) : AliveInv c s' := by
  obtain ⟨ext, e1, e2, e3, -⟩ := hext
  -- an own arrival later than `a` stays
  have stay : a.time < s.nextCt → s'.nextCt = s.nextCt → ext = [] →
      (c.deactiveT ≤ s.nextCt ∨ LastScheduled c s) → c.deactiveT ≤ s'.nextCt ∨ LastScheduled c s' := by
    rintro hlt hν rfl (h1 | ⟨b, h1, h2, h3, h4⟩)
    · exact .inl (hν ▸ h1)
    · right
      simp only [List.length_nil, Nat.add_zero, List.nil_append] at e3 e2
      have hbr : b ∈ agents rest := by
        rcases List.mem_cons.mp (hp.mem_iff.mp h1) with rfl | h5
        · exact absurd h3 hlt.ne
        · exact h5
      exact ⟨b, e2.mem_iff.mpr hbr, by rw [e3]; exact h2, by rw [hν]; exact h3, by rw [e3]; exact h4⟩
  generalize hν : s'.nextCt = ν at e1
  generalize hα : s'.active = α at e1
  generalize hn : s'.arrCalls = n at e1
  cases e1 with
  | inactive h1 =>
    refine ⟨fun hx => ?_, by simp [hα]⟩
    rw [hν, ht] at hx
    exact stay hx hν rfl (h.early (hnow.trans_lt hx))
  | early h1 h2 => exact ⟨fun _ => stay h2 hν rfl (h.act h1), fun _ => stay h2 hν rfl (h.act h1)⟩
  | off h1 h2 h3 => exact ⟨fun _ => .inl (hν ▸ h3), fun _ => .inl (hν ▸ h3)⟩
  | new h1 h2 h3 =>
    have : LastScheduled c s' := by
      refine ⟨_, e2.mem_iff.mpr (List.mem_append_left _ (List.mem_singleton.mpr rfl)), ?_, hν.symm, ?_⟩
      · rw [e3]; rfl
      · rw [e3]; simp
    exact ⟨fun _ => .inr this, fun _ => .inr this⟩

theorem AliveInv.step {c : QCfg T} {s s' : QS T} {op : QOp T} (hk : Simple c)
    (hb : QBase s) (hcl : ClockInv s) (h : AliveInv c s)
    (ho : OpOut c s op s') : AliveInv c s' := by
  have same : ∀ s' : QS T, s'.arrivals = s.arrivals → s'.nextCt = s.nextCt →
      s'.oArrivals = s.oArrivals → s.currentT ≤ s'.currentT → (s'.active = true → s.active = true) →
      AliveInv c s' := by
    intro s' e1 e2 e3 e4 e5
    refine ⟨fun hx => ?_, fun hx => ?_⟩ <;> simp only [LastScheduled, e1, e2, e3]
    · rw [e2] at hx; exact h.early (e4.trans_lt hx)
    · exact h.act (e5 hx)
  cases ho with
  | ev s' r _ h1 =>
    cases h1 with
    | idle _ _ h2 => rw [h2]; exact h
    | dep a hlt h2 _ =>
      refine same s' h2.arrivals h2.nextCt h2.oArrivals ?_ (by rw [h2.active]; exact id)
      rw [h2.currentT, h2.time_eq]; exact (hcl.nextTime_ge hb).trans (min_le_right _ _)
    | arr a rest hle hfin _ h2 _ =>
      refine h.arrived h2.perm ?_ h2.ext h2.currentT
      rw [h2.time_eq]; exact (hcl.nextTime_ge hb).trans (min_le_left _ _)
    | block a rest hle hfin _ _ h2 _ =>
      refine h.arrived h2.perm ?_ h2.ext h2.currentT
      rw [h2.time_eq]; exact (hcl.nextTime_ge hb).trans (min_le_left _ _)
  | already => exact h
  | act arr ext ν act calls ha h1 h2 h3 =>
    have key : c.deactiveT ≤ ν ∨ ∃ a ∈ agents arr, a.id = (c.edge.idx, s.oArrivals + ext.length - 1) ∧
        a.time = ν ∧ 0 < s.oArrivals + ext.length := by
      cases h1 with
      | early g =>
        refine (h.early g).imp id ?_
        rintro ⟨b, g1, g2, g3, g4⟩
        exact ⟨b, h3.mem_iff.mpr (by simpa using g1), g2, g3, g4⟩
      | off g1 g2 => exact .inl g2
      | new g1 g2 =>
        right
        exact ⟨_, h3.mem_iff.mpr (List.mem_append_left _ (List.mem_singleton.mpr rfl)), rfl, rfl, by simp⟩
    exact ⟨fun _ => key, fun _ => key⟩
  | inact => exact same _ rfl rfl rfl le_rfl (by simp)
  | srv n s' r h1 =>
    cases h1 with
    | typ => exact h
    | val => exact h
    | ok new k deps hnew hag hkl h2 h3 => exact same _ rfl rfl rfl le_rfl id
  | delay t kb s' h1 =>
    cases h1 with
    | none => exact h
    | some a rest deps _ _ _ h4 h2 h3 => exact same _ rfl rfl rfl le_rfl id
  | collect => exact same _ rfl rfl rfl le_rfl id
  | noteFull => exact same _ rfl rfl rfl le_rfl id
  | noteOpen => exact h
  | clearData => exact same _ rfl rfl rfl le_rfl id
  | clear =>
    rw [clear_simple c s hk]
    exact ⟨by simp, by simp⟩
  | handover a arr h1 h2 h3 =>
    have hm : LastScheduled c s → ∃ b ∈ agents arr, b.id = (c.edge.idx, s.oArrivals - 1) ∧
        b.time = s.nextCt ∧ 0 < s.oArrivals := by
      rintro ⟨b, g1, g2⟩
      exact ⟨b, h2.mem_iff.mpr (List.mem_cons_of_mem _ g1), g2⟩
    exact ⟨fun hx => (h.early hx).imp id hm, fun hx => (h.act hx).imp id hm⟩

theorem Reach.aliveInv {c : QCfg T} {b : Bool} {ok : QS T → QOp T → Prop} {s : QS T} (hk : Simple c)
    (hf : Forward c) (hok : ∀ s op, ok s op → ClockOk s op)
    (h : Reach c b ok s) : AliveInv c s ∧ ClockInv s := by
  refine h.induct (P := fun s => AliveInv c s ∧ ClockInv s) hk ?_
    fun _ _ _ hb hi hx ho => ⟨hi.1.step hk hb hi.2 ho, (hi.2.step hk hf hb (hok _ _ hx) ho).1⟩
  refine ⟨⟨by simp [QS.init], by simp [QS.init]⟩, ?_⟩
  constructor <;> simp [QS.init]

end Verif
