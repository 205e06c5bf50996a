import Verif.Net
import Verif.QueueInv3

/-! # What a network does with one queue (proof support) -/

set_option linter.unusedSectionVars false
set_option linter.unusedSimpArgs false
set_option linter.unusedVariables false

namespace Verif

variable {T : Type*} [LinearOrder T] [OrderTop T] [Zero T]

/-- The operations a network performs on its queues: nothing in the past. -/
def NetOk (s : QS T) (op : QOp T) : Prop := ClockOk s op

/-- Times of the agents scheduled to arrive or to depart. -/
def pendT (s : QS T) : List T :=
  (agents s.arrivals).map (·.time) ++ (agents s.departures).map (·.time)

theorem mem_pendT {s : QS T} {y : T} : y ∈ pendT s ↔
    (∃ a ∈ agents s.arrivals, a.time = y) ∨ ∃ a ∈ agents s.departures, a.time = y := by
  simp [pendT]

theorem QBase.le_pend {s : QS T} (h : QBase s) {y : T} (hy : y ∈ pendT s) : s.time ≤ y := by
  rw [h.time, nextTime]
  rcases mem_pendT.mp hy with ⟨a, ha, rfl⟩ | ⟨a, ha, rfl⟩
  · exact (min_le_left _ _).trans (h.okA.le a ha)
  · exact (min_le_right _ _).trans (h.okD.le a ha)

theorem QBase.mem_pend {s : QS T} (h : QBase s) (ht : s.time < ⊤) : s.time ∈ pendT s := by
  rw [h.time, nextTime] at ht ⊢
  rcases min_choice (headTime s.arrivals) (headTime s.departures) with he | he <;> rw [he] at ht ⊢
  · rcases h.okA.attained with h1 | ⟨a, ha, h1⟩
    · rw [h1] at ht; exact absurd ht (lt_irrefl _)
    · exact mem_pendT.mpr (.inl ⟨a, ha, h1⟩)
  · rcases h.okD.attained with h1 | ⟨a, ha, h1⟩
    · rw [h1] at ht; exact absurd ht (lt_irrefl _)
    · exact mem_pendT.mpr (.inr ⟨a, ha, h1⟩)

theorem DepSpec.pend {c : QCfg T} {s s' : QS T} {a : Agent T} (h : DepSpec c s s' a) {y : T}
    (hy : y ∈ pendT s) (hlt : headTime s.departures < y) : y ∈ pendT s' := by
  rcases mem_pendT.mp hy with ⟨b, hb, rfl⟩ | ⟨b, hb, rfl⟩
  · exact mem_pendT.mpr (.inl ⟨b, by rw [h.arrivals]; exact hb, rfl⟩)
  · refine mem_pendT.mpr (.inr ⟨b, ?_, rfl⟩)
    obtain ⟨deps, g1, -, g3⟩ := h.served
    have hb' : b ∈ agents deps := by
      rcases List.mem_cons.mp (g1.mem_iff.mp hb) with rfl | hb
      · rw [h.time_eq] at hlt; exact absurd hlt (lt_irrefl _)
      · exact hb
    rcases g3 with ⟨b', rest, -, -, -, -, e4, -, -⟩ | ⟨-, -, -, e3, -, -⟩
    · exact e4.mem_iff.mpr (by simp [hb'])
    · rw [e3]; exact hb'

theorem ExtSpec.mem {c : QCfg T} {s s' : QS T} {t : T} {rest : List (Slot T)}
    (h : ExtSpec c s s' t rest) {b : Agent T} (hb : b ∈ agents rest) : b ∈ agents s'.arrivals := by
  obtain ⟨ext, -, h2, -⟩ := h
  exact h2.mem_iff.mpr (by simp [hb])

theorem ExtSpec.count {c : QCfg T} {s s' : QS T} {t : T} {rest : List (Slot T)}
    (h : ExtSpec c s s' t rest) : s.oArrivals ≤ s'.oArrivals ∧ s'.oArrivals ≤ s.oArrivals + 1 ∧
      (s.active = false → s'.oArrivals = s.oArrivals) := by
  obtain ⟨ext, h1, -, h3, -⟩ := h
  generalize s'.nextCt = ν, s'.active = act, s'.arrCalls = n at h1
  have : ext.length ≤ 1 ∧ (s.active = false → ext.length = 0) := by
    cases h1 <;> simp_all
  exact ⟨by omega, by omega, fun h => by have := this.2 h; omega⟩

/-- What an arrival event leaves pending. -/
theorem EvOut.arr_pend {c : QCfg T} {s s' : QS T} (h : EvOut c s s' none) {y : T} (hy : y ∈ pendT s)
    (hlt : headTime s.arrivals < y) : y ∈ pendT s' := by
  have key : ∀ (a : Agent T) (rest : List (Slot T)), (agents s.arrivals).Perm (a :: agents rest) →
      a.time = headTime s.arrivals → ExtSpec c s s' a.time rest →
      (∀ b ∈ agents s.departures, b ∈ agents s'.departures) → y ∈ pendT s' := by
    intro a rest h1 h2 h3 h4
    rcases mem_pendT.mp hy with ⟨b, hb, rfl⟩ | ⟨b, hb, rfl⟩
    · refine mem_pendT.mpr (.inl ⟨b, h3.mem ?_, rfl⟩)
      rcases List.mem_cons.mp (h1.mem_iff.mp hb) with rfl | hb
      · rw [h2] at hlt; exact absurd hlt (lt_irrefl _)
      · exact hb
    · exact mem_pendT.mpr (.inr ⟨b, h4 b hb, rfl⟩)
  cases h with
  | idle _ _ h => rw [h]; exact hy
  | arr a rest _ _ _ h _ =>
    refine key a rest h.perm h.time_eq h.ext ?_
    intro b hb
    rcases h.served with ⟨-, -, -, e3, -, -⟩ | ⟨-, -, -, e3, -, -⟩
    · exact e3.mem_iff.mpr (by simp [hb])
    · rw [e3]; exact hb
  | block a rest _ _ _ _ h _ =>
    exact key a rest h.perm h.time_eq h.ext (by rw [h.departures]; simp)

/-- What an arrival event at a queue does, as far as the network is concerned. -/
structure ArrEff (c : QCfg T) (s s' : QS T) : Prop where
  out : EvOut c s s' none
  ev : nextEvent c s = .ok (s', none)
  cur : s'.currentT = s.time
  ge : s.time ≤ s'.time
  pend : ∀ y ∈ pendT s, s.time < y → y ∈ pendT s'
  total : s'.numTotal = s.numTotal + (s'.oArrivals - s.oArrivals : Int) - (s'.lost.length - s.lost.length : Int)
  count : s.oArrivals ≤ s'.oArrivals ∧ s'.oArrivals ≤ s.oArrivals + 1 ∧
    (s.active = false → s'.oArrivals = s.oArrivals)
  lost : s.lost.length ≤ s'.lost.length ∧ s'.lost.length ≤ s.lost.length + 1
  two : ∀ a b : Agent T, [a, b].Subperm (agents s.arrivals) → ∃ y ∈ pendT s', y = a.time ∨ y = b.time

theorem arr_eff {c : QCfg T} {b : Bool} {s : QS T} (hk : Simple c) (hf : Forward c)
    (h : Reach c b NetOk s) (h1 : headTime s.arrivals ≤ headTime s.departures)
    (h2 : headTime s.arrivals < ⊤) :
    ∃ s', ArrEff c s s' ∧ Reach c b NetOk s' := by
  have hb := h.base hk
  obtain ⟨s', r, g1, g2⟩ := nextEvent_spec c s hk hb.okA hb.okD
  have hreach : Reach c b NetOk s' := h.step .next trivial (by simp [QOp.run, g1])
  have hb' := hreach.base hk
  have hcl := hreach.clock hk hf (fun _ _ h => h)
  have htime : s.time = headTime s.arrivals := by rw [hb.time, nextTime, min_eq_left h1]
  have key : ∀ (a : Agent T) (rest : List (Slot T)), (agents s.arrivals).Perm (a :: agents rest) →
      ExtSpec c s s' a.time rest → ∀ x z : Agent T, [x, z].Subperm (agents s.arrivals) →
      ∃ y ∈ pendT s', y = x.time ∨ y = z.time := by
    intro a rest e1 e2 x z hxz
    have h3 : [x, z].Subperm (a :: agents rest) := hxz.trans e1.subperm
    by_cases hx : x = a
    · subst hx
      have : z ∈ agents rest := by
        have := (List.subperm_cons x).mp h3
        exact this.subset (by simp)
      exact ⟨z.time, mem_pendT.mpr (.inl ⟨z, e2.mem this, rfl⟩), .inr rfl⟩
    · have : x ∈ agents rest := by
        rcases List.mem_cons.mp (h3.subset (List.mem_cons_self)) with h4 | h4
        · exact absurd h4 hx
        · exact h4
      exact ⟨x.time, mem_pendT.mpr (.inl ⟨x, e2.mem this, rfl⟩), .inl rfl⟩
  refine ⟨s', ?_, hreach⟩
  have hg2 := g2
  cases g2 with
  | idle e1 => rw [e1] at h2; exact absurd h2 (lt_irrefl _)
  | dep a e1 => exact absurd e1 (not_lt.mpr h1)
  | arr a rest e1 e2 e3 e4 e5 =>
    have hc : s'.currentT = s.time := by rw [e4.currentT, e4.time_eq, htime]
    refine ⟨hg2, g1, hc, ?_, ?_, ?_, e4.ext.count, by rw [e4.lost]; omega, key a rest e4.perm e4.ext⟩
    · rw [← hc, hb'.time]; exact hcl.nextTime_ge hb'
    · intro y hy hlt; exact hg2.arr_pend hy (htime ▸ hlt)
    · rw [e4.numTotal, e4.lost]; omega
  | block a rest e1 e2 e3 e3' e4 e5 =>
    have hc : s'.currentT = s.time := by rw [e4.currentT, e4.time_eq, htime]
    refine ⟨hg2, g1, hc, ?_, ?_, ?_, e4.ext.count, by rw [e4.lost]; simp, key a rest e4.perm e4.ext⟩
    · rw [← hc, hb'.time]; exact hcl.nextTime_ge hb'
    · intro y hy hlt; exact hg2.arr_pend hy (htime ▸ hlt)
    · rw [e4.numTotal, e4.lost]; simp; omega

/-- What a departure event at a queue does, as far as the network is concerned. -/
structure DepEff (c : QCfg T) (s s' : QS T) (a : Agent T) : Prop where
  spec : DepSpec c s s' a
  head : s.departures.head? = some (.agent a)
  ev : nextEvent c s = .ok (s', some a)
  time : a.time = s.time
  cur : s'.currentT = s.time
  ge : s.time ≤ s'.time
  pend : ∀ y ∈ pendT s, s.time < y → y ∈ pendT s'

theorem dep_eff {c : QCfg T} {b : Bool} {s : QS T} (hk : Simple c) (hf : Forward c)
    (h : Reach c b NetOk s) (h1 : headTime s.departures < headTime s.arrivals) :
    ∃ s' a, DepEff c s s' a ∧ Reach c b NetOk s' := by
  have hb := h.base hk
  obtain ⟨s', r, g1, g2⟩ := nextEvent_spec c s hk hb.okA hb.okD
  have hreach : Reach c b NetOk s' := h.step .next trivial (by simp [QOp.run, g1])
  have hb' := hreach.base hk
  have hcl := hreach.clock hk hf (fun _ _ h => h)
  have htime : s.time = headTime s.departures := by rw [hb.time, nextTime, min_eq_right h1.le]
  cases g2 with
  | idle e1 e2 => rw [e1, e2] at h1; exact absurd h1 (lt_irrefl _)
  | dep a e1 e2 e3 =>
    have hc : s'.currentT = s.time := by rw [e2.currentT, e2.time_eq, htime]
    refine ⟨s', a, ⟨e2, e3, g1, by rw [e2.time_eq, htime], hc, ?_, ?_⟩, hreach⟩
    · rw [← hc, hb'.time]; exact hcl.nextTime_ge hb'
    · intro y hy hlt; exact e2.pend hy (htime ▸ hlt)
  | arr a rest e1 => exact absurd h1 (not_lt.mpr e1)
  | block a rest e1 => exact absurd h1 (not_lt.mpr e1)

/-- Receiving an agent at time `x` and simulating the next event. -/
structure RecvEff (c : QCfg T) (s s' : QS T) (a : Agent T) (off : QS T → Bool) : Prop where
  mid : ∃ m, addArrivalAgent c s a = .ok m ∧ m.numTotal = s.numTotal + 1 ∧ m.active = s.active ∧
    m.oArrivals = s.oArrivals ∧ m.lost = s.lost ∧ m.numSystem = s.numSystem ∧ m.numServers = s.numServers ∧
    (agents m.arrivals).Perm (a :: agents s.arrivals) ∧ m.departures = s.departures ∧
    m.queue = s.queue ∧ m.log = s.log ∧ m.time = a.time ∧
    ArrEff c (if off m then setInactive m else m) s'
  cur : s'.currentT = a.time
  ge : a.time ≤ s'.time
  pend : ∀ y ∈ pendT s, a.time < y → y ∈ pendT s'
  fin : s.time < ⊤ → s'.time < ⊤

theorem recv_eff {c : QCfg T} {b : Bool} {s : QS T} (hk : Simple c) (hf : Forward c)
    (h : Reach c b NetOk s) {a : Agent T} (hc : s.currentT ≤ a.time) (ht : a.time ≤ s.time)
    (hfin : a.time < ⊤) (off : QS T → Bool) :
    ∃ s', RecvEff c s s' a off ∧ Reach c b NetOk s' := by
  have hb := h.base hk
  obtain ⟨arr, h1, h2, h3, h4⟩ := handover_spec c s a hk.ne_null hb.okA hb.time
  have hA : a.time ≤ headTime s.arrivals := ht.trans (by rw [hb.time]; exact min_le_left _ _)
  have hD : a.time ≤ headTime s.departures := ht.trans (by rw [hb.time]; exact min_le_right _ _)
  have hm : Reach c b NetOk { s with
        arrivals := arr
        time := min (headTime arr) (headTime s.departures)
        numTotal := s.numTotal + 1 } := h.step (.handover a) hc (by simp [QOp.run, h4])
  rw [min_eq_left hA] at h3
  rw [h3, min_eq_left hD] at hm h4
  set m : QS T := { s with arrivals := arr, time := a.time, numTotal := s.numTotal + 1 } with hmdef
  have hm2 : Reach c b NetOk (if off m then setInactive m else m) := by
    split
    · exact hm.step .setInactive trivial rfl
    · exact hm
  have e0 : (if off m then setInactive m else m).arrivals = arr ∧
      (if off m then setInactive m else m).departures = s.departures ∧
      (if off m then setInactive m else m).time = a.time := by
    split <;> simp [hmdef, setInactive]
  obtain ⟨s', k1, k2⟩ := arr_eff hk hf hm2 (by rw [e0.1, e0.2.1, h3]; exact hD) (by rw [e0.1, h3]; exact hfin)
  have k3 := k1.ge
  have k4 := k1.cur
  have k5 := k1.pend
  have k6 := k1.two
  rw [e0.2.2] at k3 k4 k5
  rw [e0.1] at k6
  have e1 : ∀ y, y ∈ pendT s → y ∈ pendT (if off m then setInactive m else m) := by
    intro y hy
    rcases mem_pendT.mp hy with ⟨x, hx, rfl⟩ | ⟨x, hx, rfl⟩
    · refine mem_pendT.mpr (.inl ⟨x, ?_, rfl⟩); rw [e0.1]; exact h2.mem_iff.mpr (by simp [hx])
    · refine mem_pendT.mpr (.inr ⟨x, ?_, rfl⟩); rw [e0.2.1]; exact hx
  refine ⟨s', ⟨⟨m, h4, rfl, rfl, rfl, rfl, rfl, rfl, h2, rfl, rfl, rfl, rfl, k1⟩, k4, k3,
    fun y hy hlt => k5 y (e1 y hy) hlt, ?_⟩, k2⟩
  intro hlt
  have hb' := k2.base hk
  have hp := hb.mem_pend hlt
  rcases lt_or_eq_of_le ht with hlt' | heq
  · exact (hb'.le_pend (k5 _ (e1 _ hp) hlt')).trans_lt hlt
  · rcases mem_pendT.mp hp with ⟨x, hx, hxt⟩ | ⟨x, hx, hxt⟩
    · obtain ⟨y, hy, hy'⟩ := k6 a x (by
        refine List.Subperm.trans ?_ h2.symm.subperm
        exact (List.subperm_cons a).mpr (List.singleton_subperm_iff.mpr hx))
      refine (hb'.le_pend hy).trans_lt ?_
      rcases hy' with rfl | rfl
      · exact hfin
      · rw [hxt]; exact hlt
    · have : x ∈ agents s'.departures := by
        cases k1.out with
        | idle e1 => rw [e0.1, h3] at e1; rw [e1] at hfin; exact absurd hfin (lt_irrefl _)
        | arr a' rest _ _ _ e _ =>
          rcases e.served with ⟨-, -, -, e3, -, -⟩ | ⟨-, -, -, e3, -, -⟩
          · exact e3.mem_iff.mpr (by rw [e0.2.1]; simp [hx])
          · rw [e3, e0.2.1]; exact hx
        | block a' rest _ _ _ _ e _ => rw [e.departures, e0.2.1]; exact hx
      exact (hb'.le_pend (mem_pendT.mpr (.inr ⟨x, this, rfl⟩))).trans_lt (hxt ▸ hlt)

/-- Postponing a departure. -/
structure DelayEff (c : QCfg T) (s s' : QS T) (t : Option T) (a : Agent T) : Prop where
  head : s.departures.head? = some (.agent a)
  ev : delayService c (bumpHead s 1) t = .ok s'
  out : DelayOut c s t 1 s'
  ge : s.time ≤ s'.time
  pend : ∀ y ∈ pendT s, s.time < y → y ∈ pendT s'
  same : s'.arrivals = s.arrivals ∧ s'.queue = s.queue ∧ s'.currentT = s.currentT ∧ s'.numTotal = s.numTotal ∧
    s'.numSystem = s.numSystem ∧ s'.active = s.active ∧ s'.lost = s.lost ∧ s'.log = s.log ∧
    s'.oArrivals = s.oArrivals ∧ s'.numServers = s.numServers ∧ s'.numBlocked = s.numBlocked
  deps : ∃ rest, (agents s.departures).Perm (a :: rest) ∧
    (agents s'.departures).Perm ({ a with
      time := t.getD (c.serviceF s.svcCalls a.time), blocked := a.blocked + 1 } :: rest)

theorem delay_eff {c : QCfg T} {b : Bool} {s : QS T} (hk : Simple c) (hf : Forward c)
    (h : Reach c b NetOk s) (h1 : headTime s.departures < headTime s.arrivals) (t : Option T)
    (ht : ∀ x, t = some x → s.time ≤ x) :
    ∃ s' a, DelayEff c s s' t a ∧ Reach c b NetOk s' := by
  have hb := h.base hk
  have hcl := h.clock hk hf (fun _ _ h => h)
  have htime : s.time = headTime s.departures := by rw [hb.time, nextTime, min_eq_right h1.le]
  have hne : s.departures.head? ≠ some .infty := by
    intro he
    cases hd : s.departures with
    | nil => rw [hd] at he; simp at he
    | cons x l => rw [hd] at he h1; simp at he; subst he; simp [headTime, Slot.time] at h1
  have hag : agents s.departures ≠ [] := by
    intro he; rw [hb.okD.top_of_nil he] at h1; exact absurd h1 not_top_lt
  obtain ⟨s', g1, g2⟩ := delayBump_spec c s t 1 hk.ne_null hb.okD (fun _ => hne)
  have hcur : s.currentT ≤ s.time := by rw [hb.time]; exact hcl.nextTime_ge hb
  have hreach : Reach c b NetOk s' := by
    refine h.step (.delay t 1) ?_ g1
    cases t with
    | none => trivial
    | some x => exact hcur.trans (ht x rfl)
  have hb' := hreach.base hk
  have hg2 := g2
  cases g2 with
  | none e => exact absurd e hag
  | some a rest deps e1 e2 e3 e4 e5 e6 =>
    have hat : a.time = s.time := by rw [e3, htime]
    have hnew : s.time ≤ t.getD (c.serviceF s.svcCalls a.time) := by
      cases t with
      | none => rw [← hat]; exact hf.2 _ _
      | some x => exact ht x rfl
    refine ⟨_, a, ⟨e1, g1, hg2, ?_, ?_, ⟨rfl, rfl, rfl, rfl, rfl, rfl, rfl, rfl, rfl, rfl, rfl⟩,
      agents rest, e4, e6⟩, hreach⟩
    · by_contra hlt
      push Not at hlt
      have := hb'.mem_pend (hlt.trans_le le_top)
      rcases mem_pendT.mp this with ⟨x, hx, hxt⟩ | ⟨x, hx, hxt⟩
      · exact absurd (hb.le_pend (mem_pendT.mpr (.inl ⟨x, hx, hxt⟩))) (not_le.mpr hlt)
      · rcases List.mem_cons.mp (e6.mem_iff.mp hx) with rfl | hx
        · rw [← hxt] at hlt; exact absurd hnew (not_le.mpr hlt)
        · exact absurd (hb.le_pend (mem_pendT.mpr (.inr ⟨x, e4.mem_iff.mpr (by simp [hx]), hxt⟩)))
            (not_le.mpr hlt)
    · intro y hy hlt
      rcases mem_pendT.mp hy with ⟨x, hx, rfl⟩ | ⟨x, hx, rfl⟩
      · exact mem_pendT.mpr (.inl ⟨x, hx, rfl⟩)
      · refine mem_pendT.mpr (.inr ⟨x, ?_, rfl⟩)
        rcases List.mem_cons.mp (e4.mem_iff.mp hx) with rfl | hx
        · rw [hat] at hlt; exact absurd hlt (lt_irrefl _)
        · exact e6.mem_iff.mpr (by simp [hx])

end Verif
