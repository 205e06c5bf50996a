import Verif.NetQueue
import Verif.Resource

/-! # What a network does with one queue of any class but NullQueue (proof support)

The same as `Verif.NetQueue`, with ResourceQueues. -/

set_option linter.unusedSectionVars false
set_option linter.unusedSimpArgs false
set_option linter.unusedVariables false

namespace Verif

variable {T : Type*} [LinearOrder T] [OrderTop T] [Zero T]

/-- Classes other than NullQueue. -/
theorem kind_cases {c : QCfg T} (hk : c.kind ≠ .null) : Simple c ∨ c.kind = .resource := by
  unfold Simple
  cases h : c.kind <;> simp_all

theorem Simple.not_resource {c : QCfg T} (h : Simple c) : c.kind ≠ .resource := by
  rcases h with h | h <;> simp [h]

/-- Outcome of an event at a queue of any class but NullQueue. -/
inductive EvA (c : QCfg T) (s s' : QS T) (r : Option (Agent T)) : Prop
  | simple : Simple c → EvOut c s s' r → EvA c s s' r
  | resource : c.kind = .resource → REv c s s' r → EvA c s s' r

theorem Reach.baseA {c : QCfg T} {b : Bool} {ok : QS T → QOp T → Prop} {s : QS T} (hk : c.kind ≠ .null)
    (h : Reach c b ok s) : QBase s := by
  rcases kind_cases hk with hk | hk
  · exact h.base hk
  · exact h.baseR hk

theorem nextEvent_any (c : QCfg T) (s : QS T) (hk : c.kind ≠ .null) (hA : HeapOK s.arrivals)
    (hD : HeapOK s.departures) : ∃ s' r, nextEvent c s = .ok (s', r) ∧ EvA c s s' r := by
  rcases kind_cases hk with hk | hk
  · obtain ⟨s', r, g1, g2⟩ := nextEvent_spec c s hk hA hD
    exact ⟨s', r, g1, .simple hk g2⟩
  · obtain ⟨s', r, g1, g2⟩ := nextEvent_res c s hk hA hD
    exact ⟨s', r, g1, .resource hk g2⟩

/-- One operation at a ResourceQueue: nothing is scheduled in the past. -/
theorem ClockInv.stepR {c : QCfg T} {s s' : QS T} {op : QOp T} (hf : Forward c)
    (hb : QBase s) (h : ClockInv s) (hok : ClockOk s op) (ho : ROut c s op s') : ClockInv s' := by
  cases ho with
  | ev s' r _ h1 =>
    have gone : ∀ a, headTime s.arrivals ≤ headTime s.departures → ResGone s s' a → ClockInv s' := by
      intro a hle h2
      refine ⟨?_, ?_⟩
      · rw [h2.currentT, h2.time_eq]
        intro b hb'
        exact hb.okA.le b (h2.perm.mem_iff.mpr (by simp [hb']))
      · rw [h2.currentT, h2.time_eq, h2.departures]
        intro b hb'
        exact hle.trans (hb.okD.le b hb')
    cases h1 with
    | idle _ _ h2 => rw [h2]; exact h
    | dep a a' hlt h2 =>
      refine ⟨?_, ?_⟩
      · rw [h2.arrivals, h2.currentT, h2.time_eq]
        intro b hb'; exact hlt.le.trans (hb.okA.le b hb')
      · rw [h2.currentT]
        obtain ⟨deps, g1, g2, g3⟩ := h2.served
        have hd : ∀ b ∈ agents deps, a.time ≤ b.time := by
          intro b hb'
          rw [h2.time_eq]; exact hb.okD.le b (g1.mem_iff.mpr (by simp [hb']))
        rcases g3 with ⟨b, rest, k, n, om, -, -, -, -, -, e4, -⟩ | ⟨-, -, -, e3, -⟩
        · intro x hx
          rcases List.mem_cons.mp (e4.mem_iff.mp hx) with rfl | hx
          · exact hf.2 _ _
          · exact hd x hx
        · rw [e3]; exact hd
    | arr a rest hle _ _ _ h2 =>
      have hr : ∀ b ∈ agents rest, a.time ≤ b.time := by
        intro b hb'
        rw [h2.time_eq]; exact hb.okA.le b (h2.perm.mem_iff.mpr (by simp [hb']))
      have hd : ∀ b ∈ agents s.departures, a.time ≤ b.time := by
        intro b hb'
        rw [h2.time_eq]; exact hle.trans (hb.okD.le b hb')
      refine ⟨?_, ?_⟩
      · rw [h2.currentT]; exact arrExt_ge hf h2.ext hr
      · rw [h2.currentT]
        obtain ⟨k, n, om, -, ⟨k', -, -, -, e3, -⟩ | ⟨-, -, -, -, e3, -⟩⟩ := h2.served
        · intro x hx
          rcases List.mem_cons.mp (e3.mem_iff.mp hx) with rfl | hx
          · exact hf.2 _ _
          · exact hd x hx
        · rw [e3]; exact hd
    | block a rest hle _ _ _ _ h2 =>
      have hr : ∀ b ∈ agents rest, a.time ≤ b.time := by
        intro b hb'
        rw [h2.time_eq]; exact hb.okA.le b (h2.perm.mem_iff.mpr (by simp [hb']))
      refine ⟨?_, ?_⟩
      · rw [h2.currentT]; exact arrExt_ge hf h2.ext hr
      · rw [h2.currentT, h2.departures]
        intro b hb'
        rw [h2.time_eq]; exact hle.trans (hb.okD.le b hb')
    | deposit a had hle _ _ h2 => exact gone a hle h2
    | full a had hle _ _ _ h2 => exact gone a hle h2
  | already => exact h
  | act arr ext ν act calls ha h1 h2 h3 =>
    refine ⟨?_, h.dep⟩
    intro b hb'
    rcases List.mem_append.mp (h3.mem_iff.mp hb') with hb' | hb'
    · exact h1.ge hf b hb'
    · exact h.arr b hb'
  | inact => exact ⟨h.arr, h.dep⟩
  | srv => exact ⟨h.arr, h.dep⟩
  | srvErr => exact h
  | delay t kb s' h1 =>
    cases h1 with
    | none => exact h
    | some a rest deps _ _ _ h4 h2 h3 =>
      refine ⟨h.arr, ?_⟩
      intro b hb'
      rcases List.mem_cons.mp (h3.mem_iff.mp hb') with rfl | hb'
      · cases t with
        | none => exact (h.dep a (h4.mem_iff.mpr (by simp))).trans (hf.2 _ _)
        | some t => exact hok
      · exact h.dep b (h4.mem_iff.mpr (by simp [hb']))
  | collect => exact ⟨h.arr, h.dep⟩
  | noteFull => exact ⟨h.arr, h.dep⟩
  | noteOpen => exact h
  | clearData => exact ⟨h.arr, h.dep⟩
  | clear => exact ⟨by simp, by simp⟩
  | handover a arr h1 h2 h3 =>
    refine ⟨?_, h.dep⟩
    intro b hb'
    rcases List.mem_cons.mp (h2.mem_iff.mp hb') with rfl | hb'
    · exact hok
    · exact h.arr b hb'

theorem Reach.clockA {c : QCfg T} {b : Bool} {ok : QS T → QOp T → Prop} {s : QS T} (hk : c.kind ≠ .null)
    (hf : Forward c) (hok : ∀ s op, ok s op → ClockOk s op) (h : Reach c b ok s) : ClockInv s := by
  rcases kind_cases hk with hk | hk
  · exact h.clock hk hf hok
  · refine h.inductR hk ?_ fun _ _ _ hb hi hx ho => hi.stepR hf hb (hok _ _ hx) ho
    constructor <;> simp [QS.init]

/-- What an arrival event does with the agents on their way and in service. -/
structure ArrCore (c : QCfg T) (s s' : QS T) : Prop where
  cur : s'.currentT = headTime s.arrivals
  arr : ∃ a rest, (agents s.arrivals).Perm (a :: rest) ∧ a.time = headTime s.arrivals ∧
    ∀ b ∈ rest, b ∈ agents s'.arrivals
  dep : ∀ b ∈ agents s.departures, b ∈ agents s'.departures

theorem EvA.arrCore {c : QCfg T} {s s' : QS T} {r : Option (Agent T)} (h : EvA c s s' r)
    (h1 : headTime s.arrivals ≤ headTime s.departures) (h2 : headTime s.arrivals < ⊤) :
    r = none ∧ ArrCore c s s' := by
  cases h with
  | simple hk h =>
    cases h with
    | idle e1 => rw [e1] at h2; exact absurd h2 (lt_irrefl _)
    | dep a e1 => exact absurd e1 (not_lt.mpr h1)
    | arr a rest _ _ _ h _ =>
      refine ⟨rfl, by rw [h.currentT, h.time_eq], ⟨a, agents rest, h.perm, h.time_eq, fun b hb => h.ext.mem hb⟩, ?_⟩
      intro b hb
      rcases h.served with ⟨-, -, -, e3, -, -⟩ | ⟨-, -, -, e3, -, -⟩
      · exact e3.mem_iff.mpr (by simp [hb])
      · rw [e3]; exact hb
    | block a rest _ _ _ _ h _ =>
      exact ⟨rfl, by rw [h.currentT, h.time_eq], ⟨a, agents rest, h.perm, h.time_eq, fun b hb => h.ext.mem hb⟩,
        by rw [h.departures]; simp⟩
  | resource hk h =>
    cases h with
    | idle e1 => rw [e1] at h2; exact absurd h2 (lt_irrefl _)
    | dep a a' e1 => exact absurd e1 (not_lt.mpr h1)
    | arr a rest _ _ _ _ h =>
      refine ⟨rfl, by rw [h.currentT, h.time_eq], ⟨a, agents rest, h.perm, h.time_eq, fun b hb => h.ext.mem hb⟩, ?_⟩
      intro b hb
      obtain ⟨k, n, om, -, ⟨k', -, -, -, e3, -⟩ | ⟨-, -, -, -, e3, -⟩⟩ := h.served
      · exact e3.mem_iff.mpr (by simp [hb])
      · rw [e3]; exact hb
    | block a rest _ _ _ _ _ h =>
      exact ⟨rfl, by rw [h.currentT, h.time_eq], ⟨a, agents rest, h.perm, h.time_eq, fun b hb => h.ext.mem hb⟩,
        by rw [h.departures]; simp⟩
    | deposit a had _ _ _ h =>
      exact ⟨rfl, by rw [h.currentT, h.time_eq], ⟨a, _, h.perm, h.time_eq, fun b hb => hb⟩,
        by rw [h.departures]; simp⟩
    | full a had _ _ _ _ h =>
      exact ⟨rfl, by rw [h.currentT, h.time_eq], ⟨a, _, h.perm, h.time_eq, fun b hb => hb⟩,
        by rw [h.departures]; simp⟩

/-- What an arrival event at a queue does, as far as the network is concerned. -/
structure ArrEffA (c : QCfg T) (s s' : QS T) : Prop where
  out : EvA c s s' none
  ev : nextEvent c s = .ok (s', none)
  core : ArrCore c s s'
  cur : s'.currentT = s.time
  ge : s.time ≤ s'.time
  pend : ∀ y ∈ pendT s, s.time < y → y ∈ pendT s'
  two : ∀ a b : Agent T, [a, b].Subperm (agents s.arrivals) → ∃ y ∈ pendT s', y = a.time ∨ y = b.time

theorem arr_effA {c : QCfg T} {b : Bool} {s : QS T} (hk : c.kind ≠ .null) (hf : Forward c)
    (h : Reach c b NetOk s) (h1 : headTime s.arrivals ≤ headTime s.departures)
    (h2 : headTime s.arrivals < ⊤) :
    ∃ s', ArrEffA c s s' ∧ Reach c b NetOk s' := by
  have hb := h.baseA hk
  obtain ⟨s', r, g1, g2⟩ := nextEvent_any c s hk hb.okA hb.okD
  obtain ⟨rfl, hc⟩ := g2.arrCore h1 h2
  have hreach : Reach c b NetOk s' := h.step .next trivial (by simp [QOp.run, g1])
  have hb' := hreach.baseA hk
  have hcl := hreach.clockA hk hf (fun _ _ h => h)
  have htime : s.time = headTime s.arrivals := by rw [hb.time, nextTime, min_eq_left h1]
  have hcur : s'.currentT = s.time := by rw [hc.cur, htime]
  obtain ⟨a, rest, e1, e2, e3⟩ := hc.arr
  refine ⟨s', ⟨g2, g1, hc, hcur, ?_, ?_, ?_⟩, hreach⟩
  · rw [← hcur, hb'.time]; exact hcl.nextTime_ge hb'
  · intro y hy hlt
    rcases mem_pendT.mp hy with ⟨x, hx, rfl⟩ | ⟨x, hx, rfl⟩
    · refine mem_pendT.mpr (.inl ⟨x, e3 x ?_, rfl⟩)
      rcases List.mem_cons.mp (e1.mem_iff.mp hx) with rfl | hx
      · rw [e2, ← htime] at hlt; exact absurd hlt (lt_irrefl _)
      · exact hx
    · exact mem_pendT.mpr (.inr ⟨x, hc.dep x hx, rfl⟩)
  · intro x z hxz
    have h3 : [x, z].Subperm (a :: rest) := hxz.trans e1.subperm
    by_cases hx : x = a
    · subst hx
      have : z ∈ rest := by
        have := (List.subperm_cons x).mp h3
        exact this.subset (by simp)
      exact ⟨z.time, mem_pendT.mpr (.inl ⟨z, e3 z this, rfl⟩), .inr rfl⟩
    · have : x ∈ rest := by
        rcases List.mem_cons.mp (h3.subset (List.mem_cons_self)) with h4 | h4
        · exact absurd h4 hx
        · exact h4
      exact ⟨x.time, mem_pendT.mpr (.inl ⟨x, e3 x this, rfl⟩), .inl rfl⟩

/-- What a departure event at a queue does, as far as the network is concerned: `a` is the agent at the head of the
departures and `a'` what it is after its action. -/
structure DepEffA (c : QCfg T) (s s' : QS T) (a a' : Agent T) : Prop where
  out : EvA c s s' (some a')
  head : s.departures.head? = some (.agent a)
  same : a' = { a with kind := a'.kind }
  ev : nextEvent c s = .ok (s', some a')
  time : a'.time = s.time
  cur : s'.currentT = s.time
  ge : s.time ≤ s'.time
  pend : ∀ y ∈ pendT s, s.time < y → y ∈ pendT s'
  total : s'.numTotal = s.numTotal - 1

theorem dep_effA {c : QCfg T} {b : Bool} {s : QS T} (hk : c.kind ≠ .null) (hf : Forward c)
    (h : Reach c b NetOk s) (h1 : headTime s.departures < headTime s.arrivals) :
    ∃ s' a a', DepEffA c s s' a a' ∧ Reach c b NetOk s' := by
  have hb := h.baseA hk
  obtain ⟨s', r, g1, g2⟩ := nextEvent_any c s hk hb.okA hb.okD
  have hreach : Reach c b NetOk s' := h.step .next trivial (by simp [QOp.run, g1])
  have hb' := hreach.baseA hk
  have hcl := hreach.clockA hk hf (fun _ _ h => h)
  have htime : s.time = headTime s.departures := by rw [hb.time, nextTime, min_eq_right h1.le]
  have hg2 := g2
  cases g2 with
  | simple hk g2 =>
    cases g2 with
    | idle e1 e2 => rw [e1, e2] at h1; exact absurd h1 (lt_irrefl _)
    | dep a e1 e2 e3 =>
      have hc : s'.currentT = s.time := by rw [e2.currentT, e2.time_eq, htime]
      refine ⟨s', a, a, ⟨hg2, e3, rfl, g1, by rw [e2.time_eq, htime], hc, ?_, ?_, e2.numTotal⟩, hreach⟩
      · rw [← hc, hb'.time]; exact hcl.nextTime_ge hb'
      · intro y hy hlt; exact e2.pend hy (htime ▸ hlt)
    | arr a rest e1 => exact absurd h1 (not_lt.mpr e1)
    | block a rest e1 => exact absurd h1 (not_lt.mpr e1)
  | resource hk g2 =>
    cases g2 with
    | idle e1 e2 => rw [e1, e2] at h1; exact absurd h1 (lt_irrefl _)
    | dep a a' e1 e2 =>
      have hc : s'.currentT = s.time := by rw [e2.currentT, e2.time_eq, htime]
      have hat : a'.time = a.time := by rw [e2.same]
      refine ⟨s', a, a', ⟨hg2, e2.head, e2.same, g1, by rw [hat, e2.time_eq, htime], hc, ?_, ?_, e2.numTotal⟩,
        hreach⟩
      · rw [← hc, hb'.time]; exact hcl.nextTime_ge hb'
      · intro y hy hlt
        rw [htime] at hlt
        rcases mem_pendT.mp hy with ⟨b, hb, rfl⟩ | ⟨b, hb, rfl⟩
        · exact mem_pendT.mpr (.inl ⟨b, by rw [e2.arrivals]; exact hb, rfl⟩)
        · refine mem_pendT.mpr (.inr ⟨b, ?_, rfl⟩)
          obtain ⟨deps, g1, -, g3⟩ := e2.served
          have hb' : b ∈ agents deps := by
            rcases List.mem_cons.mp (g1.mem_iff.mp hb) with rfl | hb
            · rw [e2.time_eq] at hlt; exact absurd hlt (lt_irrefl _)
            · exact hb
          rcases g3 with ⟨b', rest, k, n, om, -, -, -, -, -, e4, -⟩ | ⟨-, -, -, e3, -⟩
          · exact e4.mem_iff.mpr (by simp [hb'])
          · rw [e3]; exact hb'
    | arr a rest e1 => exact absurd h1 (not_lt.mpr e1)
    | block a rest e1 => exact absurd h1 (not_lt.mpr e1)
    | deposit a had e1 => exact absurd h1 (not_lt.mpr e1)
    | full a had e1 => exact absurd h1 (not_lt.mpr e1)

/-- Receiving an agent at time `x` and simulating the next event. -/
structure RecvEffA (c : QCfg T) (s s' : QS T) (a : Agent T) (off : QS T → Bool) : Prop where
  mid : ∃ m, addArrivalAgent c s a = .ok m ∧ m.numTotal = s.numTotal + 1 ∧ m.active = s.active ∧
    m.oArrivals = s.oArrivals ∧ m.lost = s.lost ∧ m.numSystem = s.numSystem ∧ m.numServers = s.numServers ∧
    (agents m.arrivals).Perm (a :: agents s.arrivals) ∧ m.departures = s.departures ∧
    m.queue = s.queue ∧ m.log = s.log ∧ m.time = a.time ∧
    ArrEffA c (if off m then setInactive m else m) s'
  cur : s'.currentT = a.time
  ge : a.time ≤ s'.time
  pend : ∀ y ∈ pendT s, a.time < y → y ∈ pendT s'
  fin : s.time < ⊤ → s'.time < ⊤

theorem recv_effA {c : QCfg T} {b : Bool} {s : QS T} (hk : c.kind ≠ .null) (hf : Forward c)
    (h : Reach c b NetOk s) {a : Agent T} (hc : s.currentT ≤ a.time) (ht : a.time ≤ s.time)
    (hfin : a.time < ⊤) (off : QS T → Bool) :
    ∃ s', RecvEffA c s s' a off ∧ Reach c b NetOk s' := by
  have hb := h.baseA hk
  obtain ⟨arr, h1, h2, h3, h4⟩ := handover_spec c s a hk hb.okA hb.time
  have hA : a.time ≤ headTime s.arrivals := ht.trans (by rw [hb.time]; exact min_le_left _ _)
  have hD : a.time ≤ headTime s.departures := ht.trans (by rw [hb.time]; exact min_le_right _ _)
  have hm : Reach c b NetOk { s with
        arrivals := arr
        time := min (headTime arr) (headTime s.departures)
        numTotal := s.numTotal + 1 } := h.step (.handover a) hc (by simp [QOp.run, h4])
  rw [min_eq_left hA] at h3
  rw [h3, min_eq_left hD] at hm h4
  set m : QS T := { s with arrivals := arr, time := a.time, numTotal := s.numTotal + 1 } with hmdef
  have hm2 : Reach c b NetOk (if off m then setInactive m else m) := by
    split
    · exact hm.step .setInactive trivial rfl
    · exact hm
  have e0 : (if off m then setInactive m else m).arrivals = arr ∧
      (if off m then setInactive m else m).departures = s.departures ∧
      (if off m then setInactive m else m).time = a.time := by
    split <;> simp [hmdef, setInactive]
  obtain ⟨s', k1, k2⟩ := arr_effA hk hf hm2 (by rw [e0.1, e0.2.1, h3]; exact hD) (by rw [e0.1, h3]; exact hfin)
  have k3 := k1.ge
  have k4 := k1.cur
  have k5 := k1.pend
  have k6 := k1.two
  rw [e0.2.2] at k3 k4 k5
  rw [e0.1] at k6
  have e1 : ∀ y, y ∈ pendT s → y ∈ pendT (if off m then setInactive m else m) := by
    intro y hy
    rcases mem_pendT.mp hy with ⟨x, hx, rfl⟩ | ⟨x, hx, rfl⟩
    · refine mem_pendT.mpr (.inl ⟨x, ?_, rfl⟩); rw [e0.1]; exact h2.mem_iff.mpr (by simp [hx])
    · refine mem_pendT.mpr (.inr ⟨x, ?_, rfl⟩); rw [e0.2.1]; exact hx
  refine ⟨s', ⟨⟨m, h4, rfl, rfl, rfl, rfl, rfl, rfl, h2, rfl, rfl, rfl, rfl, k1⟩, k4, k3,
    fun y hy hlt => k5 y (e1 y hy) hlt, ?_⟩, k2⟩
  intro hlt
  have hb' := k2.baseA hk
  have hp := hb.mem_pend hlt
  rcases lt_or_eq_of_le ht with hlt' | heq
  · exact (hb'.le_pend (k5 _ (e1 _ hp) hlt')).trans_lt hlt
  · rcases mem_pendT.mp hp with ⟨x, hx, hxt⟩ | ⟨x, hx, hxt⟩
    · obtain ⟨y, hy, hy'⟩ := k6 a x (by
        refine List.Subperm.trans ?_ h2.symm.subperm
        exact (List.subperm_cons a).mpr (List.singleton_subperm_iff.mpr hx))
      refine (hb'.le_pend hy).trans_lt ?_
      rcases hy' with rfl | rfl
      · exact hfin
      · rw [hxt]; exact hlt
    · have : x ∈ agents s'.departures := by
        exact k1.core.dep x (by rw [e0.2.1]; exact hx)
      exact (hb'.le_pend (mem_pendT.mpr (.inr ⟨x, this, rfl⟩))).trans_lt (hxt ▸ hlt)

theorem delay_effA {c : QCfg T} {b : Bool} {s : QS T} (hk : c.kind ≠ .null) (hf : Forward c)
    (h : Reach c b NetOk s) (h1 : headTime s.departures < headTime s.arrivals) (t : Option T)
    (ht : ∀ x, t = some x → s.time ≤ x) :
    ∃ s' a, DelayEff c s s' t a ∧ Reach c b NetOk s' := by
  have hb := h.baseA hk
  have hcl := h.clockA hk hf (fun _ _ h => h)
  have htime : s.time = headTime s.departures := by rw [hb.time, nextTime, min_eq_right h1.le]
  have hne : s.departures.head? ≠ some .infty := by
    intro he
    cases hd : s.departures with
    | nil => rw [hd] at he; simp at he
    | cons x l => rw [hd] at he h1; simp at he; subst he; simp [headTime, Slot.time] at h1
  have hag : agents s.departures ≠ [] := by
    intro he; rw [hb.okD.top_of_nil he] at h1; exact absurd h1 not_top_lt
  obtain ⟨s', g1, g2⟩ := delayBump_spec c s t 1 hk hb.okD (fun _ => hne)
  have hcur : s.currentT ≤ s.time := by rw [hb.time]; exact hcl.nextTime_ge hb
  have hreach : Reach c b NetOk s' := by
    refine h.step (.delay t 1) ?_ g1
    cases t with
    | none => trivial
    | some x => exact hcur.trans (ht x rfl)
  have hb' := hreach.baseA hk
  have hg2 := g2
  cases g2 with
  | none e => exact absurd e hag
  | some a rest deps e1 e2 e3 e4 e5 e6 =>
    have hat : a.time = s.time := by rw [e3, htime]
    have hnew : s.time ≤ t.getD (c.serviceF s.svcCalls a.time) := by
      cases t with
      | none => rw [← hat]; exact hf.2 _ _
      | some x => exact ht x rfl
    refine ⟨_, a, ⟨e1, g1, hg2, ?_, ?_, ⟨rfl, rfl, rfl, rfl, rfl, rfl, rfl, rfl, rfl, rfl, rfl⟩,
      agents rest, e4, e6⟩, hreach⟩
    · by_contra hlt
      push Not at hlt
      have := hb'.mem_pend (hlt.trans_le le_top)
      rcases mem_pendT.mp this with ⟨x, hx, hxt⟩ | ⟨x, hx, hxt⟩
      · exact absurd (hb.le_pend (mem_pendT.mpr (.inl ⟨x, hx, hxt⟩))) (not_le.mpr hlt)
      · rcases List.mem_cons.mp (e6.mem_iff.mp hx) with rfl | hx
        · rw [← hxt] at hlt; exact absurd hnew (not_le.mpr hlt)
        · exact absurd (hb.le_pend (mem_pendT.mpr (.inr ⟨x, e4.mem_iff.mpr (by simp [hx]), hxt⟩)))
            (not_le.mpr hlt)
    · intro y hy hlt
      rcases mem_pendT.mp hy with ⟨x, hx, rfl⟩ | ⟨x, hx, rfl⟩
      · exact mem_pendT.mpr (.inl ⟨x, hx, rfl⟩)
      · refine mem_pendT.mpr (.inr ⟨x, ?_, rfl⟩)
        rcases List.mem_cons.mp (e4.mem_iff.mp hx) with rfl | hx
        · rw [hat] at hlt; exact absurd hlt (lt_irrefl _)
        · exact e6.mem_iff.mpr (by simp [hx])

end Verif
