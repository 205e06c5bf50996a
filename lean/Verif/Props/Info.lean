import Verif.Info
import Verif.Props.Queue1

/-! # Properties C70 and C71: InfoQueue and InfoAgent -/

set_option linter.unusedSectionVars false
set_option linter.unusedVariables false

namespace Verif.InfoSpec

open QueueSpec

variable {T : Type*} [LinearOrder T] [OrderTop T] [Zero T]

/-! ## C70 -/

/-- The operation draws an outside arrival that is not before `deactive_t`: `set_active` on an inactive queue, or the
event of an arrival while the queue is active. -/
def Past (c : QCfg T) (s : QS T) : QOp T → Prop
  | .setActive => s.active = false ∧ s.nextCt ≤ s.currentT ∧ c.deactiveT ≤ c.arrivalF s.arrCalls s.currentT
  | .next => s.active = true ∧ headTime s.arrivals ≤ headTime s.departures ∧ headTime s.arrivals < ⊤ ∧
      s.nextCt ≤ headTime s.arrivals ∧ c.deactiveT ≤ c.arrivalF s.arrCalls (headTime s.arrivals)
  | _ => False

theorem infoAdd_past (c : QCfg T) (s : QS T) (h : s.nextCt ≤ s.currentT)
    (hd : c.deactiveT ≤ c.arrivalF s.arrCalls s.currentT) : infoAddArrival c s = .error .attributeError := by
  unfold infoAddArrival
  rw [if_pos h]
  simp only [if_pos hd]

theorem infoAdd_same (c : QCfg T) (hk : c.kind ≠ .null) (s : QS T)
    (h : ¬ (s.nextCt ≤ s.currentT ∧ c.deactiveT ≤ c.arrivalF s.arrCalls s.currentT)) :
    infoAddArrival c s = addArrival c s := by
  unfold infoAddArrival addArrival
  rw [if_neg hk]
  by_cases h1 : s.nextCt ≤ s.currentT
  · have h2 : ¬ c.deactiveT ≤ c.arrivalF s.arrCalls s.currentT := fun h2 => h ⟨h1, h2⟩
    simp only [if_pos h1, if_neg h2]
    rfl
  · simp only [if_neg h1]

theorem infoLoss_departure (c : QCfg T) (s : QS T) (h : headTime s.departures < headTime s.arrivals) :
    infoLossEvent c s = lossEvent c s := by
  unfold infoLossEvent lossEvent infoBaseEvent baseEvent
  simp only [if_pos h]

/-- C70, what happens instead: an InfoQueue raises AttributeError as soon as an outside arrival is drawn that is not
before `deactive_t`. -/
theorem C70_raises {c : QCfg T} (hk : c.kind = .loss) {b : Bool} {ok : QS T → QOp T → Prop} {s : QS T}
    (h : Reach c b ok s) {op : QOp T} (hp : Past c s op) : infoRun c s op = .error .attributeError := by
  cases op <;> simp only [Past] at hp
  case setActive =>
    obtain ⟨h1, h2, h3⟩ := hp
    simp only [infoRun, h1, Bool.false_eq_true, if_false]
    exact infoAdd_past c _ h2 h3
  case next =>
    obtain ⟨h1, h2, h3, h4, h5⟩ := hp
    obtain ⟨a, rest, p1, p2, p3, p4, -⟩ := (h.base (.inr hk)).okA.pop h3
    have key : ∀ s' : QS T, s'.active = s.active → s'.nextCt = s.nextCt → s'.currentT = a.time →
        s'.arrCalls = s.arrCalls → infoAddArrival c s' = .error .attributeError := by
      intro s' e1 e2 e3 e4
      exact infoAdd_past c s' (by rw [e2, e3, p4]; exact h4) (by rw [e3, e4, p4]; exact h5)
    have k1 := key { s with arrivals := rest, currentT := a.time } rfl rfl rfl rfl
    have k2 := key { s with
      numBlocked := s.numBlocked + 1
      numTotal := s.numTotal - 1
      arrivals := rest
      lost := s.lost ++ [{ a with blocked := a.blocked + 1 }]
      currentT := a.time } rfl rfl rfl rfl
    simp only [infoRun, infoLossEvent, infoBaseEvent, infoArriveEvent, infoBlockEvent, if_neg (not_lt.mpr h2),
      if_pos h3, p1, h1, if_true] at k1 k2 ⊢
    rw [k1, k2]
    split <;> simp_all

/-- C70, the rest: in all other cases an InfoQueue does what a LossQueue does. -/
theorem C70_otherwise_partial {c : QCfg T} (hk : c.kind = .loss) {b : Bool} {ok : QS T → QOp T → Prop} {s : QS T}
    (h : Reach c b ok s) {op : QOp T} (hp : ¬ Past c s op) : infoRun c s op = op.run c s := by
  have hnull : c.kind ≠ .null := by simp [hk]
  cases op <;> try rfl
  case setActive =>
    simp only [infoRun, QOp.run, setActive]
    cases ha : s.active with
    | true => rfl
    | false =>
      simp only [Bool.false_eq_true, if_false]
      exact infoAdd_same c hnull _ fun h2 => hp ⟨ha, h2⟩
  case next =>
    simp only [infoRun, QOp.run, nextEvent, hk]
    have e : infoLossEvent c s = lossEvent c s := by
      by_cases h1 : headTime s.departures < headTime s.arrivals
      · exact infoLoss_departure c s h1
      · by_cases h2 : headTime s.arrivals < ⊤
        · obtain ⟨a, rest, p1, p2, p3, p4, -⟩ := (h.base (.inr hk)).okA.pop h2
          have key : ∀ s' : QS T, s'.active = s.active → s'.nextCt = s.nextCt → s'.currentT = a.time →
              s'.arrCalls = s.arrCalls →
              (if s'.active then infoAddArrival c s' else .ok s') = if s'.active then addArrival c s' else .ok s' := by
            intro s' e1 e2 e3 e4
            cases ha : s'.active with
            | false => rfl
            | true =>
              simp only [if_true]
              refine infoAdd_same c hnull _ fun h3 => hp ?_
              rw [e2, e3, e4, p4] at h3
              exact ⟨by rw [← e1, ha], not_lt.mp h1, h2, h3.1, h3.2⟩
          have k1 := key { s with arrivals := rest, currentT := a.time } rfl rfl rfl rfl
          have k2 := key { s with
            numBlocked := s.numBlocked + 1
            numTotal := s.numTotal - 1
            arrivals := rest
            lost := s.lost ++ [{ a with blocked := a.blocked + 1 }]
            currentT := a.time } rfl rfl rfl rfl
          unfold infoLossEvent lossEvent infoBaseEvent baseEvent infoArriveEvent arriveEvent infoBlockEvent blockEvent
          simp only [if_neg h1, if_pos h2, p1]
          simp only at k1 k2
          rw [k1, k2]
          rfl
        · unfold infoLossEvent lossEvent
          simp only [if_neg h1, if_neg h2]
    rw [e]
    rfl

/-- C70: so every state an InfoQueue can get into without an exception is one a LossQueue can get into, and all
properties of the latter hold. -/
theorem C70_refines_partial {C : ICfg T} {b : Bool} {ok : Nat → QS T → QOp T → Prop} {w : IWorld T}
    (hC : ∀ k, C.info k = true → (C.qc k).kind = .loss) (h : IReach C b ok w) (k : Nat) :
    Reach (C.qc k) b (ok k) (w.qs k) := by
  induction h with
  | init => exact .init
  | @step w w' j op h1 hok hr ih =>
    by_cases hj : k = j
    · subst hj
      unfold IWorld.run at hr
      simp only at hr
      cases hi : C.info k with
      | true =>
        simp only [hi, if_true] at hr
        split at hr
        · simp at hr
        · split at hr
          · simp at hr
          · rename_i net hg s' hs
            split at hr
            · simp at hr
            · split at hr
              · simp at hr
              · simp only [Except.ok.injEq] at hr
                subst hr
                simp only [Function.update_self]
                by_cases hp : Past (C.qc k) (w.qs k) op
                · rw [C70_raises (hC k hi) ih hp] at hs
                  simp at hs
                · rw [C70_otherwise_partial (hC k hi) ih hp] at hs
                  exact ih.step op hok hs
      | false =>
        simp only [hi, Bool.false_eq_true, if_false] at hr
        split at hr
        · simp at hr
        · rename_i s' hs
          simp only [Except.ok.injEq] at hr
          subst hr
          simp only [Function.update_self]
          exact ih.step op hok hs
    · have hq : w'.qs k = w.qs k := by
        unfold IWorld.run at hr
        simp only at hr
        split at hr
        · split at hr
          · simp at hr
          · split at hr
            · simp at hr
            · split at hr
              · simp at hr
              · split at hr
                · simp at hr
                · simp only [Except.ok.injEq] at hr
                  subst hr
                  simp [Function.update_of_ne hj]
        · split at hr
          · simp at hr
          · simp only [Except.ok.injEq] at hr
            subst hr
            simp [Function.update_of_ne hj]
      rw [hq]; exact ih

/-! ## C71 -/

/-- What `IWorld.run` does at an InfoQueue. -/
structure IStep (C : ICfg T) (w : IWorld T) (k : Nat) (op : QOp T) (w' : IWorld T) where
  net : NetInfo T
  s' : QS T
  gather : w.gather k op = .ok net
  run : infoRun (C.qc k) (w.qs k) op = .ok s'
  qs : w'.qs = Function.update w.qs k s'
  nets : w'.net = Function.update w.net k net
  mem : infoActions (C.qc k).edge.idx ⟨s'.currentT, some ((w.qs k).numServers, s'.numSystem)⟩ net
    (s'.log.drop (w.qs k).log.length)
    (infoCreate (some (List.replicate net.length IRow.unknown)) (s'.created.drop (w.qs k).created.length) w.mem) =
    .ok w'.mem

theorem iStep {C : ICfg T} {w w' : IWorld T} {k : Nat} {op : QOp T} (hi : C.info k = true)
    (hr : w.run C k op = .ok w') : Nonempty (IStep C w k op w') := by
  unfold IWorld.run at hr
  simp only [hi, if_true] at hr
  split at hr
  · simp at hr
  · split at hr
    · simp at hr
    · split at hr
      · simp at hr
      · split at hr
        · simp at hr
        · rename_i net hg _ s' hs _ _ _ _ mem hm
          simp only [Except.ok.injEq] at hr
          subst hr
          exact ⟨⟨net, s', hg, hs, rfl, rfl, hm⟩⟩

theorem create_cases (m : Option (NetInfo T)) (new : List ((Nat × Nat) × T)) : ∀ (mem : Memory T) (id : Nat × Nat),
    (id ∉ new.map Prod.fst ∧ infoCreate m new mem id = mem id) ∨
    (id ∈ new.map Prod.fst ∧ infoCreate m new mem id = m) := by
  induction new with
  | nil => intro mem id; left; exact ⟨by simp, rfl⟩
  | cons x new ih =>
    intro mem id
    obtain ⟨j, t⟩ := x
    simp only [infoCreate, List.map_cons, List.mem_cons]
    rcases ih (Function.update mem j m) id with ⟨h1, h2⟩ | ⟨h1, h2⟩
    · rw [h2]
      by_cases he : id = j
      · right; subst he; exact ⟨.inl rfl, by simp⟩
      · left; exact ⟨by simp only [not_or]; exact ⟨he, h1⟩, by simp [Function.update_of_ne he]⟩
    · right; exact ⟨.inr h1, h2⟩

theorem infoLost_spec (n : Nat) (mem : Memory T) (l : List (Agent T)) :
    (infoLost n mem l = .ok () ∧ ∀ a ∈ l, ∀ m, mem a.id = some m → n < m.length) ∨
    (infoLost n mem l = .error .indexError ∧ ∃ a ∈ l, ∃ m, mem a.id = some m ∧ m.length ≤ n) := by
  induction l with
  | nil => left; exact ⟨rfl, by simp⟩
  | cons a l ih =>
    unfold infoLost
    cases h : mem a.id with
    | none =>
      simp only
      rcases ih with ⟨h1, h2⟩ | ⟨h1, b, hb, h2⟩
      · left; refine ⟨h1, fun b hb m hm => ?_⟩
        rcases List.mem_cons.mp hb with rfl | hb
        · rw [h] at hm; cases hm
        · exact h2 b hb m hm
      · right; exact ⟨h1, b, List.mem_cons_of_mem _ hb, h2⟩
    | some m =>
      simp only
      by_cases hn : n < m.length
      · rw [if_pos hn]
        rcases ih with ⟨h1, h2⟩ | ⟨h1, b, hb, h2⟩
        · left; refine ⟨h1, fun b hb m' hm => ?_⟩
          rcases List.mem_cons.mp hb with rfl | hb
          · rw [h] at hm; cases hm; exact hn
          · exact h2 b hb m' hm
        · right; exact ⟨h1, b, List.mem_cons_of_mem _ hb, h2⟩
      · rw [if_neg hn]
        right; exact ⟨rfl, a, by simp, m, h, by omega⟩

/-- C71. An InfoQueue whose number an agent has no row for cannot turn it away: IndexError. -/
theorem C71_cannot_lose {C : ICfg T} {w : IWorld T} {k : Nat} {op : QOp T} (hi : C.info k = true) {net : NetInfo T}
    (hg : w.gather k op = .ok net) {s' : QS T} (hs : infoRun (C.qc k) (w.qs k) op = .ok s') {a : Agent T}
    (ha : a ∈ s'.lost.drop (w.qs k).lost.length) (hnew : a.id ∉ (s'.created.drop (w.qs k).created.length).map Prod.fst)
    {m : NetInfo T} (hm : w.mem a.id = some m) (hsmall : m.length ≤ (C.qc k).edge.idx) :
    w.run C k op = .error .indexError := by
  unfold IWorld.run
  simp only [hi, if_true, hg, hs]
  rcases infoLost_spec (C.qc k).edge.idx (infoCreate (some (List.replicate net.length IRow.unknown))
    (s'.created.drop (w.qs k).created.length) w.mem) (s'.lost.drop (w.qs k).lost.length) with ⟨h1, h2⟩ | ⟨h1, h2⟩
  · have := h2 a ha m (by
      rcases create_cases (some (List.replicate net.length IRow.unknown)) (s'.created.drop (w.qs k).created.length) w.mem a.id
        with ⟨-, h3⟩ | ⟨h3, -⟩
      · rw [h3, hm]
      · exact absurd h3 hnew)
    omega
  · rw [h1]

/-- C71. An InfoQueue whose number an agent has no row for cannot serve it either: IndexError when the agent's `queue_action` is
called. If the agent and the queue have different numbers of rows it is a ValueError, or an IndexError if one has one row. -/
theorem C71_cannot_act {C : ICfg T} {w : IWorld T} {k : Nat} {op : QOp T} (hi : C.info k = true) {net : NetInfo T}
    (hg : w.gather k op = .ok net) {s' : QS T} (hs : infoRun (C.qc k) (w.qs k) op = .ok s')
    (hno : s'.lost.drop (w.qs k).lost.length = []) {id : Nat × Nat} {st : Nat} {rest : List ((Nat × Nat) × Nat)}
    (ha : s'.log.drop (w.qs k).log.length = (id, st) :: rest)
    (hnew : id ∉ (s'.created.drop (w.qs k).created.length).map Prod.fst) {m : NetInfo T} (hm : w.mem id = some m) :
    (m.length = net.length → m.length ≤ (C.qc k).edge.idx → w.run C k op = .error .indexError) ∧
    (m.length ≠ net.length → m.length = 1 ∨ net.length = 1 → w.run C k op = .error .indexError) ∧
    (m.length ≠ net.length → m.length ≠ 1 → net.length ≠ 1 → w.run C k op = .error .valueError) := by
  have hmem : infoCreate (some (List.replicate net.length IRow.unknown)) (s'.created.drop (w.qs k).created.length) w.mem id =
      some m := by
    rcases create_cases (some (List.replicate net.length IRow.unknown)) (s'.created.drop (w.qs k).created.length) w.mem id
      with ⟨-, h3⟩ | ⟨h3, -⟩
    · rw [h3, hm]
    · exact absurd h3 hnew
  unfold IWorld.run
  simp only [hi, if_true, hg, hs, hno, ha, infoLost, infoActions, hmem]
  unfold infoAction
  refine ⟨fun h1 h2 => ?_, fun h1 h2 => ?_, fun h1 h2 h3 => ?_⟩
  · rw [if_pos h1]
    simp only [List.length_zipWith]
    rw [if_neg (by omega)]
  · rw [if_neg h1]
    simp only [sizeErr]
    rw [if_pos h2]
  · rw [if_neg h1]
    simp only [sizeErr]
    rw [if_neg (by tauto)]

/-- C71. If an InfoQueue turns an agent away without an error, the agent has a row for the queue. -/
theorem C71_lost_knows {C : ICfg T} {w w' : IWorld T} {k : Nat} {op : QOp T} (hi : C.info k = true)
    (hr : w.run C k op = .ok w') {a : Agent T}
    (ha : a ∈ (w'.qs k).lost.drop (w.qs k).lost.length)
    (hnew : a.id ∉ ((w'.qs k).created.drop (w.qs k).created.length).map Prod.fst) {m : NetInfo T} (hm : w.mem a.id = some m) :
    (C.qc k).edge.idx < m.length := by
  obtain ⟨st⟩ := iStep hi hr
  by_contra hno
  have e : w'.qs k = st.s' := by rw [st.qs]; simp
  rw [e] at ha hnew
  have := C71_cannot_lose hi st.gather st.run ha hnew hm (by omega)
  rw [this] at hr
  cases hr

/-- What `IWorld.run` does at another queue. -/
theorem oStep {C : ICfg T} {w w' : IWorld T} {k : Nat} {op : QOp T} (hi : C.info k = false)
    (hr : w.run C k op = .ok w') : ∃ s', op.run (C.qc k) (w.qs k) = .ok s' ∧ w'.qs = Function.update w.qs k s' ∧
      w'.net = w.net ∧ w'.mem = infoCreate none (s'.created.drop (w.qs k).created.length) w.mem := by
  unfold IWorld.run at hr
  simp only [hi, Bool.false_eq_true, if_false] at hr
  split at hr
  · simp at hr
  · rename_i s' hs
    simp only [Except.ok.injEq] at hr
    subst hr
    exact ⟨s', hs, rfl, rfl, rfl⟩

/-- Every row about queue `i` that some InfoQueue or InfoAgent has satisfies `P i`. -/
def AllRows (P : Nat → IRow T → Prop) (w : IWorld T) : Prop :=
  (∀ j i r, (w.net j)[i]? = some r → P i r) ∧
  ∀ id m i r, w.mem id = some m → m[i]? = some r → P i r

theorem zip_some {l l' : NetInfo T} {f : IRow T → IRow T → IRow T} {i : Nat} {r : IRow T}
    (h : (l.zipWith f l')[i]? = some r) : ∃ x y, l[i]? = some x ∧ l'[i]? = some y ∧ r = f x y := by
  rw [List.getElem?_zipWith] at h
  cases h1 : l[i]? with
  | none => rw [h1] at h; simp at h
  | some x =>
    cases h2 : l'[i]? with
    | none => rw [h1, h2] at h; simp at h
    | some y =>
      rw [h1, h2] at h
      simp only [Option.some.injEq] at h
      exact ⟨x, y, rfl, rfl, h.symm⟩

theorem extract_rows {P : Nat → IRow T → Prop} {net m net' : NetInfo T} (h : extractInfo net m = .ok net')
    (h1 : ∀ i r, net[i]? = some r → P i r) (h2 : ∀ i r, m[i]? = some r → P i r) :
    ∀ i r, net'[i]? = some r → P i r := by
  unfold extractInfo at h
  split at h
  · simp only [Except.ok.injEq] at h
    subst h
    intro i r hr
    obtain ⟨x, y, hx, hy, rfl⟩ := zip_some hr
    split
    · exact h2 i y hy
    · exact h1 i x hx
  · simp at h

theorem action_rows {P : Nat → IRow T → Prop} {n : Nat} {row : IRow T} {net m m' : NetInfo T}
    (h : infoAction n row net m = .ok m') (hrow : P n row) (h1 : ∀ i r, net[i]? = some r → P i r)
    (h2 : ∀ i r, m[i]? = some r → P i r) : ∀ i r, m'[i]? = some r → P i r := by
  unfold infoAction at h
  split at h
  · simp only at h
    split at h
    · simp only [Except.ok.injEq] at h
      subst h
      intro i r hr
      rw [List.getElem?_set] at hr
      split at hr
      · rename_i hn
        subst hn
        simp only [Option.some.injEq] at hr
        subst hr; exact hrow
      · obtain ⟨x, y, hx, hy, rfl⟩ := zip_some hr
        split
        · exact h1 i y hy
        · exact h2 i x hx
    · simp at h
  · simp at h

theorem actions_rows {P : Nat → IRow T → Prop} {n : Nat} {row : IRow T} {net : NetInfo T} (hrow : P n row)
    (h1 : ∀ i r, net[i]? = some r → P i r) (calls : List ((Nat × Nat) × Nat)) : ∀ (mem mem' : Memory T),
    infoActions n row net calls mem = .ok mem' → (∀ id m i r, mem id = some m → m[i]? = some r → P i r) →
    ∀ id m i r, mem' id = some m → m[i]? = some r → P i r := by
  induction calls with
  | nil => intro mem mem' h h2; simp only [infoActions, Except.ok.injEq] at h; rw [← h]; exact h2
  | cons x calls ih =>
    intro mem mem' h h2
    obtain ⟨id, st⟩ := x
    simp only [infoActions] at h
    cases hm : mem id with
    | none => rw [hm] at h; exact ih mem mem' h h2
    | some m =>
      rw [hm] at h
      simp only at h
      split at h
      · simp at h
      · rename_i m' ha
        refine ih _ mem' h ?_
        intro id' m1 i r hid hr
        by_cases he : id' = id
        · subst he
          rw [Function.update_self] at hid
          simp only [Option.some.injEq] at hid
          subst hid
          exact action_rows ha hrow h1 (fun i r hr => h2 id' m i r hm hr) i r hr
        · rw [Function.update_of_ne he] at hid
          exact h2 id' m1 i r hid hr

theorem gather_rows {P : Nat → IRow T → Prop} {w : IWorld T} (h : AllRows P w) (hu : ∀ i, P i IRow.unknown) {k : Nat}
    {op : QOp T} {net : NetInfo T} (hg : w.gather k op = .ok net) : ∀ i r, net[i]? = some r → P i r := by
  have hsame : ∀ i r, (w.net k)[i]? = some r → P i r := h.1 k
  unfold IWorld.gather at hg
  split at hg
  · split at hg
    · split at hg
      · rename_i a ha
        split at hg
        · rename_i m hm
          exact extract_rows hg hsame fun i r hr => h.2 a.id m i r hm hr
        · simp only [Except.ok.injEq] at hg; rw [← hg]; exact hsame
      · simp only [Except.ok.injEq] at hg; rw [← hg]; exact hsame
    · simp only [Except.ok.injEq] at hg; rw [← hg]; exact hsame
  · simp only [Except.ok.injEq] at hg
    subst hg
    intro i r hr
    rw [List.getElem?_replicate] at hr
    split at hr
    · simp only [Option.some.injEq] at hr; rw [← hr]; exact hu i
    · simp at hr
  · simp only [Except.ok.injEq] at hg; rw [← hg]; exact hsame

/-- Rows are only copied; new ones are unknown, or the stamp of the queue concerned. -/
theorem run_rows {C : ICfg T} {w w' : IWorld T} {k : Nat} {op : QOp T} (hr : w.run C k op = .ok w')
    {P : Nat → IRow T → Prop} (h : AllRows P w) (hu : ∀ i, P i IRow.unknown)
    (hrow : C.info k = true →
      P (C.qc k).edge.idx ⟨(w'.qs k).currentT, some ((w.qs k).numServers, (w'.qs k).numSystem)⟩) : AllRows P w' := by
  have hcr : ∀ (m : Option (NetInfo T)) (new : List ((Nat × Nat) × T)),
      (∀ l, m = some l → ∀ i r, l[i]? = some r → P i r) →
      ∀ id l i r, infoCreate m new w.mem id = some l → l[i]? = some r → P i r := by
    intro m new hm id l i r hl hr
    rcases create_cases m new w.mem id with ⟨-, h2⟩ | ⟨-, h2⟩
    · rw [h2] at hl; exact h.2 id l i r hl hr
    · rw [h2] at hl; exact hm l hl i r hr
  have hun : ∀ n l, some (List.replicate n (IRow.unknown (T := T))) = some l → ∀ i r, l[i]? = some r → P i r := by
    intro n l hl i r hr
    simp only [Option.some.injEq] at hl
    subst hl
    rw [List.getElem?_replicate] at hr
    split at hr
    · simp only [Option.some.injEq] at hr; rw [← hr]; exact hu i
    · simp at hr
  cases hi : C.info k with
  | true =>
    obtain ⟨st⟩ := iStep hi hr
    have hs' : w'.qs k = st.s' := by rw [st.qs, Function.update_self]
    have hg := gather_rows h hu st.gather
    constructor
    · intro j i r hr
      rw [st.nets] at hr
      by_cases hj : j = k
      · subst hj; rw [Function.update_self] at hr; exact hg i r hr
      · rw [Function.update_of_ne hj] at hr; exact h.1 j i r hr
    · refine actions_rows (by rw [← hs']; exact hrow hi) hg _ _ _ st.mem ?_
      exact hcr _ _ (hun _)
  | false =>
    obtain ⟨s', -, -, h3, h4⟩ := oStep hi hr
    constructor
    · intro j i r hr
      rw [h3] at hr
      exact h.1 j i r hr
    · rw [h4]; exact hcr _ _ (by simp)

/-! ### What everybody believes was once true -/

/-- `w'` comes after `w` in a history. -/
inductive Later (C : ICfg T) (ok : Nat → QS T → QOp T → Prop) (w : IWorld T) : IWorld T → Prop
  | refl : Later C ok w w
  | step {w1 w2 : IWorld T} (k : Nat) (op : QOp T) : Later C ok w w1 → ok k (w1.qs k) op → w1.run C k op = .ok w2 →
      Later C ok w w2

/-- At some moment of the history the clock of queue `i` showed the stamp, and it had the number of servers and of
agents recorded. -/
def WasTrue (C : ICfg T) (b : Bool) (ok : Nat → QS T → QOp T → Prop) (w : IWorld T) (i : Nat) (r : IRow T) : Prop :=
  ∃ w0, IReach C b ok w0 ∧ Later C ok w0 w ∧ C.info i = true ∧
    r = ⟨(w0.qs i).currentT, some ((w0.qs i).numServers, (w0.qs i).numSystem)⟩

theorem serversOrState {c : QCfg T} (hk : Simple c) {s s' : QS T} {op : QOp T} (hb : QBase s) (hr : op.run c s = .ok s') :
    s'.numServers = s.numServers ∨ (s'.currentT = s.currentT ∧ s'.numSystem = s.numSystem) := by
  have ho := opOut c s s' op hk hb hr
  cases ho with
  | ev s' r _ h1 =>
    left
    cases h1 with
    | idle _ _ h2 => rw [h2]
    | dep a _ h2 => exact h2.numServers
    | arr a rest _ _ _ h2 => exact h2.numServers
    | block a rest _ _ _ _ h2 => exact h2.numServers
  | srv n s' r h1 => right; cases h1 <;> exact ⟨rfl, rfl⟩
  | delay t kb s' h1 => left; cases h1 <;> rfl
  | clear => left; unfold Verif.clear; split <;> rfl
  | _ => left; rfl

/-- C71: whatever an InfoQueue or InfoAgent knows about a queue was true of this queue at the time of the stamp. -/
theorem C71_true {C : ICfg T} {b : Bool} {ok : Nat → QS T → QOp T → Prop} {w : IWorld T}
    (hC : ∀ k, C.info k = true → (C.qc k).kind = .loss) (hidx : ∀ k, (C.qc k).edge.idx = k) (h : IReach C b ok w) :
    AllRows (fun i r => r = IRow.unknown ∨ WasTrue C b ok w i r) w := by
  induction h with
  | init =>
    refine ⟨fun j i r hr => ?_, fun id m i r hm => by simp [IWorld.init] at hm⟩
    simp only [IWorld.init, List.getElem?_replicate] at hr
    split at hr
    · simp only [Option.some.injEq] at hr; exact .inl hr.symm
    · simp at hr
  | @step w w' k op h1 hok hr ih =>
    have mono : ∀ i r, (r = IRow.unknown ∨ WasTrue C b ok w i r) → (r = IRow.unknown ∨ WasTrue C b ok w' i r) := by
      rintro i r (h | ⟨w0, g1, g2, g3, g4⟩)
      · exact .inl h
      · exact .inr ⟨w0, g1, g2.step k op hok hr, g3, g4⟩
    refine run_rows hr ⟨fun j i r hh => mono i r (ih.1 j i r hh), fun id m i r hh hh' => mono i r (ih.2 id m i r hh hh')⟩
      (fun i => .inl rfl) fun hi => .inr ?_
    rw [hidx k]
    have hre := C70_refines_partial hC h1 k
    have hre' := C70_refines_partial hC (h1.step k op hok hr) k
    have hk : Simple (C.qc k) := .inr (hC k hi)
    obtain ⟨st⟩ := iStep hi hr
    have hs' : w'.qs k = st.s' := by rw [st.qs, Function.update_self]
    have hrun : op.run (C.qc k) (w.qs k) = .ok (w'.qs k) := by
      rw [hs', ← st.run]
      refine (C70_otherwise_partial (hC k hi) hre fun hp => ?_).symm
      have := st.run
      rw [C70_raises (hC k hi) hre hp] at this
      simp at this
    rcases serversOrState hk (hre.base hk) hrun with e | ⟨e1, e2⟩
    · exact ⟨w', h1.step k op hok hr, .refl, hi, by rw [e]⟩
    · exact ⟨w, h1, Later.refl.step k op hok hr, hi, by rw [e1, e2]⟩

/-! ### Information gets newer -/

/-- Operations that do not go back in time. -/
def Onward (C : ICfg T) (k : Nat) (s : QS T) (op : QOp T) : Prop := ClockOk s op ∧ op ≠ .clear

/-- Same queues, and no stamp is older. -/
def Newer (m m' : NetInfo T) : Prop :=
  m'.length = m.length ∧ ∀ (i : Nat) (r r' : IRow T), m[i]? = some r → m'[i]? = some r' → r.stamp ≤ r'.stamp

theorem Newer.refl (m : NetInfo T) : Newer m m :=
  ⟨rfl, fun i r r' h h' => by rw [h] at h'; simp only [Option.some.injEq] at h'; rw [h']⟩

theorem Newer.trans {m m' m'' : NetInfo T} (h : Newer m m') (h' : Newer m' m'') : Newer m m'' := by
  refine ⟨h'.1.trans h.1, fun i r r'' hr hr'' => ?_⟩
  have hlt : i < m'.length := by
    rw [h.1]; exact (List.getElem?_eq_some_iff.mp hr).1
  exact (h.2 i r _ hr (List.getElem?_eq_getElem hlt)).trans (h'.2 i _ r'' (List.getElem?_eq_getElem hlt) hr'')

/-- Well-formed: InfoQueues are LossQueues whose clocks do not go backwards, and queue `k` has edge index `k`. -/
structure Good (C : ICfg T) : Prop where
  loss : ∀ k, C.info k = true → (C.qc k).kind = .loss
  fwd : ∀ k, C.info k = true → Forward (C.qc k)
  idx : ∀ k, (C.qc k).edge.idx = k

theorem run_base {C : ICfg T} (hC : Good C) {b : Bool} {ok : Nat → QS T → QOp T → Prop} {w w' : IWorld T} {k : Nat}
    {op : QOp T} (h : IReach C b ok w) (hi : C.info k = true) (hr : w.run C k op = .ok w') :
    op.run (C.qc k) (w.qs k) = .ok (w'.qs k) := by
  have hre := C70_refines_partial hC.loss h k
  obtain ⟨st⟩ := iStep hi hr
  have hs' : w'.qs k = st.s' := by rw [st.qs, Function.update_self]
  rw [hs', ← st.run]
  refine (C70_otherwise_partial (hC.loss k hi) hre fun hp => ?_).symm
  have := st.run
  rw [C70_raises (hC.loss k hi) hre hp] at this
  simp at this

theorem run_other {C : ICfg T} {w w' : IWorld T} {k j : Nat} {op : QOp T} (hr : w.run C k op = .ok w') (hj : j ≠ k) :
    w'.qs j = w.qs j := by
  cases hi : C.info k with
  | true => obtain ⟨st⟩ := iStep hi hr; rw [st.qs, Function.update_of_ne hj]
  | false => obtain ⟨s', -, h2, -⟩ := oStep hi hr; rw [h2, Function.update_of_ne hj]

theorem clock_mono {C : ICfg T} (hC : Good C) {b : Bool} {w w' : IWorld T} {k : Nat} {op : QOp T}
    (h : IReach C b (Onward C) w) (hok : Onward C k (w.qs k) op) (hr : w.run C k op = .ok w') {i : Nat}
    (hi : C.info i = true) : (w.qs i).currentT ≤ (w'.qs i).currentT := by
  by_cases hik : i = k
  · subst hik
    have hk : Simple (C.qc i) := .inr (hC.loss i hi)
    have hre := C70_refines_partial hC.loss h i
    exact ((hre.clock hk (hC.fwd i hi) (fun _ _ h => h.1)).step hk (hC.fwd i hi) (hre.base hk) hok.1
      (opOut _ _ _ op hk (hre.base hk) (run_base hC h hi hr))).2 hok.2
  · rw [run_other hr hik]

/-- No stamp is ahead of the clock of the queue concerned. -/
def Honest (C : ICfg T) (w : IWorld T) : Prop :=
  AllRows (fun i r => r = IRow.unknown ∨ (C.info i = true ∧ r.stamp ≤ ((w.qs i).currentT : WithBot T))) w

theorem honest {C : ICfg T} (hC : Good C) {b : Bool} {w : IWorld T} (h : IReach C b (Onward C) w) : Honest C w := by
  induction h with
  | init =>
    refine ⟨fun j i r hr => ?_, fun id m i r hm => by simp [IWorld.init] at hm⟩
    simp only [IWorld.init, List.getElem?_replicate] at hr
    split at hr
    · simp only [Option.some.injEq] at hr; exact .inl hr.symm
    · simp at hr
  | @step w w' k op h1 hok hr ih =>
    have mono : ∀ i r, (r = IRow.unknown ∨ (C.info i = true ∧ r.stamp ≤ ((w.qs i).currentT : WithBot T))) →
        (r = IRow.unknown ∨ (C.info i = true ∧ r.stamp ≤ ((w'.qs i).currentT : WithBot T))) := by
      rintro i r (h | ⟨g1, g2⟩)
      · exact .inl h
      · exact .inr ⟨g1, g2.trans (WithBot.coe_le_coe.mpr (clock_mono hC h1 hok hr g1))⟩
    refine run_rows hr ⟨fun j i r hh => mono i r (ih.1 j i r hh), fun id m i r hh hh' => mono i r (ih.2 id m i r hh hh')⟩
      (fun i => .inl rfl) fun hi => .inr ?_
    rw [hC.idx k]
    exact ⟨hi, le_rfl⟩

theorem extract_newer {net m net' : NetInfo T} (h : extractInfo net m = .ok net') : Newer net net' ∧ Newer m net' := by
  unfold extractInfo at h
  split at h
  · rename_i hl
    simp only [Except.ok.injEq] at h
    subst h
    refine ⟨⟨by simp [hl], ?_⟩, ⟨by simp [hl], ?_⟩⟩
    · intro i r r' hr hr'
      obtain ⟨x, y, hx, hy, rfl⟩ := zip_some hr'
      rw [hr] at hx
      simp only [Option.some.injEq] at hx
      subst hx
      split
      · rename_i hlt; exact hlt.le
      · exact le_rfl
    · intro i r r' hr hr'
      obtain ⟨x, y, hx, hy, rfl⟩ := zip_some hr'
      rw [hr] at hy
      simp only [Option.some.injEq] at hy
      subst hy
      split
      · exact le_rfl
      · rename_i hlt; exact not_lt.mp hlt
  · simp at h

theorem action_newer {n : Nat} {row : IRow T} {net m m' : NetInfo T} (h : infoAction n row net m = .ok m')
    (h1 : ∀ r, net[n]? = some r → r.stamp ≤ row.stamp) (h2 : ∀ r, m[n]? = some r → r.stamp ≤ row.stamp) :
    Newer m m' ∧ Newer net m' ∧ m'[n]? = some row := by
  unfold infoAction at h
  split at h
  · rename_i hl
    simp only at h
    split at h
    · rename_i hn
      simp only [Except.ok.injEq] at h
      subst h
      refine ⟨⟨by simp [hl], ?_⟩, ⟨by simp [hl], ?_⟩, ?_⟩
      · intro i r r' hr hr'
        rw [List.getElem?_set] at hr'
        split at hr'
        · rename_i hni
          subst hni
          simp only [Option.some.injEq] at hr'
          subst hr'
          exact h2 r hr
        · obtain ⟨x, y, hx, hy, rfl⟩ := zip_some hr'
          rw [hr] at hx
          simp only [Option.some.injEq] at hx
          subst hx
          split
          · rename_i hlt
            rcases hlt with hlt | hlt
            · exact hlt.le
            · rw [hlt]; exact bot_le
          · exact le_rfl
      · intro i r r' hr hr'
        rw [List.getElem?_set] at hr'
        split at hr'
        · rename_i hni
          subst hni
          simp only [Option.some.injEq] at hr'
          subst hr'
          exact h1 r hr
        · obtain ⟨x, y, hx, hy, rfl⟩ := zip_some hr'
          rw [hr] at hy
          simp only [Option.some.injEq] at hy
          subst hy
          split
          · exact le_rfl
          · rename_i hlt
            exact not_lt.mp fun h => hlt (.inl h)
      · rw [List.getElem?_set, if_pos rfl, if_pos hn]
    · simp at h
  · simp at h

theorem actions_newer {n : Nat} {row : IRow T} {net : NetInfo T} (h1 : ∀ r, net[n]? = some r → r.stamp ≤ row.stamp)
    (calls : List ((Nat × Nat) × Nat)) : ∀ (mem mem' : Memory T), infoActions n row net calls mem = .ok mem' →
    (∀ id m r, mem id = some m → m[n]? = some r → r.stamp ≤ row.stamp) →
    ∀ id m, mem id = some m → ∃ m', mem' id = some m' ∧ Newer m m' ∧
      (id ∈ calls.map Prod.fst → Newer net m' ∧ m'[n]? = some row) := by
  induction calls with
  | nil =>
    intro mem mem' h h2 id m hm
    simp only [infoActions, Except.ok.injEq] at h
    exact ⟨m, by rw [← h, hm], Newer.refl m, by simp⟩
  | cons x calls ih =>
    intro mem mem' h h2 id m hm
    obtain ⟨j, st⟩ := x
    simp only [infoActions] at h
    cases hj : mem j with
    | none =>
      rw [hj] at h
      obtain ⟨m', g1, g2, g3⟩ := ih mem mem' h h2 id m hm
      refine ⟨m', g1, g2, fun hid => g3 ?_⟩
      simp only [List.map_cons, List.mem_cons] at hid
      rcases hid with rfl | hid
      · rw [hm] at hj; simp at hj
      · exact hid
    | some mj =>
      rw [hj] at h
      simp only at h
      split at h
      · simp at h
      · rename_i mj' ha
        obtain ⟨a1, a2, a3⟩ := action_newer ha h1 fun r hr => h2 j mj r hj hr
        have h2' : ∀ id m r, Function.update mem j (some mj') id = some m → m[n]? = some r → r.stamp ≤ row.stamp := by
          intro id m r hid hr
          by_cases he : id = j
          · subst he
            rw [Function.update_self] at hid
            simp only [Option.some.injEq] at hid
            subst hid
            rw [a3] at hr
            simp only [Option.some.injEq] at hr
            rw [hr]
          · rw [Function.update_of_ne he] at hid
            exact h2 id m r hid hr
        by_cases he : id = j
        · subst he
          rw [hm] at hj
          simp only [Option.some.injEq] at hj
          subst hj
          obtain ⟨m', g1, g2, g3⟩ := ih _ mem' h h2' id mj' (Function.update_self ..)
          refine ⟨m', g1, a1.trans g2, fun _ => ⟨a2.trans g2, ?_⟩⟩
          by_cases hc : id ∈ calls.map Prod.fst
          · exact (g3 hc).2
          · -- nothing else happens to this agent
            have : mem' id = some mj' := by
              have keep : ∀ (calls : List ((Nat × Nat) × Nat)) (mem mem' : Memory T), id ∉ calls.map Prod.fst →
                  infoActions n row net calls mem = .ok mem' → mem' id = mem id := by
                intro calls
                induction calls with
                | nil => intro mem mem' _ h; simp only [infoActions, Except.ok.injEq] at h; rw [h]
                | cons y calls ih =>
                  intro mem mem' hn h
                  obtain ⟨i, st⟩ := y
                  simp only [List.map_cons, List.mem_cons, not_or] at hn
                  simp only [infoActions] at h
                  split at h
                  · exact ih _ _ hn.2 h
                  · split at h
                    · simp at h
                    · rw [ih _ _ hn.2 h, Function.update_of_ne hn.1]
              rw [keep calls _ _ hc h, Function.update_self]
            rw [this] at g1
            simp only [Option.some.injEq] at g1
            rw [← g1]; exact a3
        · obtain ⟨m', g1, g2, g3⟩ := ih _ mem' h h2' id m (by rw [Function.update_of_ne he]; exact hm)
          refine ⟨m', g1, g2, fun hid => g3 ?_⟩
          simp only [List.map_cons, List.mem_cons] at hid
          exact hid.resolve_left he

theorem gather_newer {w : IWorld T} {k : Nat} {op : QOp T} (hop : op ≠ .clear) {net : NetInfo T}
    (hg : w.gather k op = .ok net) : Newer (w.net k) net := by
  unfold IWorld.gather at hg
  split at hg
  · split at hg
    · split at hg
      · split at hg
        · exact (extract_newer hg).1
        · simp only [Except.ok.injEq] at hg; rw [← hg]; exact .refl _
      · simp only [Except.ok.injEq] at hg; rw [← hg]; exact .refl _
    · simp only [Except.ok.injEq] at hg; rw [← hg]; exact .refl _
  · exact absurd rfl hop
  · simp only [Except.ok.injEq] at hg; rw [← hg]; exact .refl _

/-- The agents created by an operation at queue `k`. -/
def Created (w w' : IWorld T) (k : Nat) (id : Nat × Nat) : Prop :=
  id ∈ ((w'.qs k).created.drop (w.qs k).created.length).map Prod.fst

/-- The agents whose `queue_action` is called by an operation at queue `k`. -/
def Acted (w w' : IWorld T) (k : Nat) (id : Nat × Nat) : Prop :=
  id ∈ ((w'.qs k).log.drop (w.qs k).log.length).map Prod.fst

/-- C71: no operation but `clear` makes any stamp of any InfoQueue or of any InfoAgent older. An agent whose
`queue_action` is called by the operation then knows everything the queue knows, and the current state of the queue. -/
theorem C71_newer {C : ICfg T} (hC : Good C) {b : Bool} {w w' : IWorld T} (h : IReach C b (Onward C) w) {k : Nat}
    {op : QOp T} (hok : Onward C k (w.qs k) op) (hr : w.run C k op = .ok w') :
    (∀ j, Newer (w.net j) (w'.net j)) ∧
    ∀ id m, w.mem id = some m → ¬ Created w w' k id → ∃ m', w'.mem id = some m' ∧ Newer m m' ∧
      (C.info k = true → Acted w w' k id → Newer (w'.net k) m' ∧
        m'[k]? = some ⟨(w'.qs k).currentT, some ((w.qs k).numServers, (w'.qs k).numSystem)⟩) := by
  cases hi : C.info k with
  | true =>
    obtain ⟨st⟩ := iStep hi hr
    have hs' : w'.qs k = st.s' := by rw [st.qs, Function.update_self]
    have hgn := gather_newer hok.2 st.gather
    have hle : ((w.qs k).currentT : WithBot T) ≤ ((w'.qs k).currentT : WithBot T) :=
      WithBot.coe_le_coe.mpr (clock_mono hC h hok hr hi)
    have hon := honest hC h
    have bound : ∀ r : IRow T, (r = IRow.unknown ∨ (C.info k = true ∧ r.stamp ≤ ((w.qs k).currentT : WithBot T))) →
        r.stamp ≤ ((w'.qs k).currentT : WithBot T) := by
      rintro r (rfl | ⟨-, h1⟩)
      · exact bot_le
      · exact h1.trans hle
    have hgb : ∀ r, st.net[k]? = some r → r.stamp ≤ ((w'.qs k).currentT : WithBot T) := by
      intro r hr0
      exact gather_rows (P := fun i r => i = k → r.stamp ≤ ((w'.qs k).currentT : WithBot T))
        ⟨fun j i r hx hik => bound r (by rw [← hik]; exact hon.1 j i r hx),
          fun id m i r hm hx hik => bound r (by rw [← hik]; exact hon.2 id m i r hm hx)⟩
        (fun i _ => bot_le) st.gather k r hr0 rfl
    refine ⟨fun j => ?_, fun id m hm hcr => ?_⟩
    · rw [st.nets]
      by_cases hj : j = k
      · subst hj; rw [Function.update_self]; exact hgn
      · rw [Function.update_of_ne hj]; exact .refl _
    · have hm1 := st.mem
      rw [hC.idx k] at hm1
      unfold Created at hcr
      rw [hs'] at hcr
      obtain ⟨m', g1, g2, g3⟩ := actions_newer (by rw [← hs']; exact hgb) _ _ _ hm1 (by
          intro id l r hl hr
          rw [← hs']
          rcases create_cases (some (List.replicate st.net.length IRow.unknown))
            (st.s'.created.drop (w.qs k).created.length) w.mem id with ⟨-, e⟩ | ⟨-, e⟩
          · rw [e] at hl; exact bound r (hon.2 id l k r hl hr)
          · rw [e] at hl
            simp only [Option.some.injEq] at hl
            subst hl
            rw [List.getElem?_replicate] at hr
            split at hr
            · simp only [Option.some.injEq] at hr; rw [← hr]; exact bot_le
            · simp at hr) id m (by
          rcases create_cases (some (List.replicate st.net.length IRow.unknown))
            (st.s'.created.drop (w.qs k).created.length) w.mem id with ⟨-, e⟩ | ⟨e, -⟩
          · rw [e]; exact hm
          · exact absurd e hcr)
      refine ⟨m', g1, g2, fun _ hact => ?_⟩
      unfold Acted at hact
      rw [hs'] at hact
      rw [st.nets, Function.update_self, hs']
      exact g3 hact
  | false =>
    obtain ⟨s', -, h2, h3, h4⟩ := oStep hi hr
    have hs' : w'.qs k = s' := by rw [h2, Function.update_self]
    refine ⟨fun j => by rw [h3]; exact .refl _, fun id m hm hcr => ⟨m, ?_, .refl m, by simp⟩⟩
    unfold Created at hcr
    rw [hs'] at hcr
    rw [h4]
    rcases create_cases none (s'.created.drop (w.qs k).created.length) w.mem id with ⟨-, e⟩ | ⟨e, -⟩
    · rw [e]; exact hm
    · exact absurd e hcr

/-- C71, what the queue learns: when the next agent arrives before the next one departs, the queue then knows everything
the agent knew. MISSING from the full property: an arrival at the same time as a departure, see `C71_tie`. -/
theorem C71_arrival_partial {C : ICfg T} {w w' : IWorld T} {k : Nat} (hi : C.info k = true) {a : Agent T}
    (hlt : headTime (w.qs k).arrivals < headTime (w.qs k).departures)
    (ha : (w.qs k).arrivals.head? = some (.agent a)) {m : NetInfo T} (hm : w.mem a.id = some m)
    (hr : w.run C k .next = .ok w') : Newer m (w'.net k) := by
  obtain ⟨st⟩ := iStep hi hr
  have hg := st.gather
  unfold IWorld.gather at hg
  simp only [if_pos hlt, ha, hm] at hg
  rw [st.nets, Function.update_self]
  exact (extract_newer hg).2

/-- C71: an agent that knows a different number of queues than the InfoQueue it arrives at is an error, unless a departure
is due first: an IndexError if one of the numbers is 1, otherwise a ValueError. -/
theorem C71_other_size {C : ICfg T} {w : IWorld T} {k : Nat} (hi : C.info k = true) {a : Agent T}
    (hlt : headTime (w.qs k).arrivals < headTime (w.qs k).departures)
    (ha : (w.qs k).arrivals.head? = some (.agent a)) {m : NetInfo T} (hm : w.mem a.id = some m)
    (hl : m.length ≠ (w.net k).length) :
    (m.length = 1 ∨ (w.net k).length = 1 → w.run C k .next = .error .indexError) ∧
    (m.length ≠ 1 → (w.net k).length ≠ 1 → w.run C k .next = .error .valueError) := by
  unfold IWorld.run IWorld.gather
  simp only [hi, if_true, if_pos hlt, ha, hm]
  unfold extractInfo
  rw [if_neg (Ne.symm hl)]
  simp only [sizeErr]
  refine ⟨fun h => by rw [if_pos h.symm], fun h1 h2 => by rw [if_neg (by tauto)]⟩

end Verif.InfoSpec
