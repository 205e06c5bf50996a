import Verif.QueueRun
import Mathlib.Data.List.Count

/-! # The invariant of a single queue (proof support) -/

set_option linter.unusedSectionVars false
set_option linter.unusedSimpArgs false
set_option linter.unusedVariables false

namespace Verif

variable {T : Type*} [LinearOrder T] [OrderTop T] [Zero T]

/-- Outcome of an operation on a QueueServer or LossQueue. -/
inductive OpOut (c : QCfg T) (s : QS T) : QOp T → QS T → Prop
  | ev (s' : QS T) (r : Option (Agent T)) : nextEvent c s = .ok (s', r) → EvOut c s s' r →
      OpOut c s .next s'
  | already : s.active = true → OpOut c s .setActive s
  | act (arr : List (Slot T)) (ext : List (Agent T)) (ν : T) (act : Bool) (calls : Nat) :
      s.active = false → AddOut c { s with active := true } ext ν act calls → HeapOK arr →
      (agents arr).Perm (ext ++ agents s.arrivals) →
      OpOut c s .setActive { s with
        arrivals := arr, nextCt := ν, active := act, arrCalls := calls
        time := min (headTime arr) (headTime s.departures)
        numTotal := s.numTotal + ext.length
        oArrivals := s.oArrivals + ext.length
        created := s.created ++ ext.map fun a => (a.id, a.time) }
  | inact : OpOut c s .setInactive { s with active := false }
  | srv (n : PyNum) (s' : QS T) (r : Option Err) : SrvOut c s n s' r → OpOut c s (.setServers n) s'
  | delay (t : Option T) (kb : Nat) (s' : QS T) : DelayOut c s t kb s' → OpOut c s (.delay t kb) s'
  | collect (b : Bool) : OpOut c s (.collect b) { s with collectData := b }
  | noteFull : c.kind = .loss → OpOut c s .note { s with numBlocked := s.numBlocked + 1 }
  | noteOpen : OpOut c s .note s
  | clearData : OpOut c s .clearData { s with data := [] }
  | clear : OpOut c s .clear (Verif.clear c s)
  | handover (a : Agent T) (arr : List (Slot T)) : HeapOK arr →
      (agents arr).Perm (a :: agents s.arrivals) → headTime arr = min a.time (headTime s.arrivals) →
      OpOut c s (.handover a) { s with
        arrivals := arr
        time := min (headTime arr) (headTime s.departures)
        numTotal := s.numTotal + 1 }

/-- Shape of the heaps and of `_time`. -/
structure QBase (s : QS T) : Prop where
  okA : HeapOK s.arrivals
  okD : HeapOK s.departures
  time : s.time = nextTime s

theorem opOut (c : QCfg T) (s s' : QS T) (op : QOp T) (hk : Simple c) (h : QBase s)
    (hr : op.run c s = .ok s') : OpOut c s op s' := by
  cases op with
  | next =>
    obtain ⟨s1, r, h1, h2⟩ := nextEvent_spec c s hk h.okA h.okD
    simp only [QOp.run, h1, Except.ok.injEq] at hr
    subst hr
    exact .ev _ r h1 h2
  | setActive =>
    simp only [QOp.run] at hr
    cases ha : s.active with
    | true =>
      simp only [setActive, ha, if_true, Except.ok.injEq] at hr
      subst hr; exact .already ha
    | false =>
      obtain ⟨arr, ext, ν, act, calls, h1, h2, h3, h4⟩ :=
        setActive_spec c s hk.ne_null h.okA h.time ha
      rw [h4] at hr
      simp only [Except.ok.injEq] at hr
      subst hr
      exact .act arr ext ν act calls ha h1 h2 h3
  | setInactive =>
    simp only [QOp.run, Except.ok.injEq] at hr
    subst hr; exact .inact
  | setServers n =>
    simp only [QOp.run, Except.ok.injEq] at hr
    subst hr; exact .srv n _ _ (setNumServers_spec c s n hk h.okD)
  | delay t kb =>
    simp only [QOp.run] at hr
    obtain ⟨s1, h1, h2⟩ := delayBump_spec c s t kb hk.ne_null h.okD
      (delayBump_fin c s s' t kb hk.ne_null h.okD hr)
    rw [h1] at hr
    simp only [Except.ok.injEq] at hr
    subst hr; exact .delay t kb _ h2
  | note =>
    simp only [QOp.run, Except.ok.injEq] at hr
    by_cases hc : atCapacity c s = true
    · rw [if_pos hc] at hr
      subst hr
      refine .noteFull ?_
      rcases hk with hk | hk
      · simp [atCapacity, hk] at hc
      · exact hk
    · rw [if_neg hc] at hr
      subst hr; exact .noteOpen
  | clearData =>
    simp only [QOp.run, Except.ok.injEq] at hr
    subst hr; exact .clearData
  | collect b =>
    simp only [QOp.run, Except.ok.injEq] at hr
    subst hr; exact .collect b
  | clear =>
    simp only [QOp.run, Except.ok.injEq] at hr
    subst hr; exact .clear
  | handover a =>
    simp only [QOp.run] at hr
    obtain ⟨arr, h1, h2, h3, h4⟩ := handover_spec c s a hk.ne_null h.okA h.time
    rw [h4] at hr
    simp only [Except.ok.injEq] at hr
    subst hr; exact .handover a arr h1 h2 h3

theorem clear_simple (c : QCfg T) (s : QS T) (hk : Simple c) :
    clear c s = { s with
      data := [], numArrivals := 0, oArrivals := 0, numDepartures := 0, numSystem := 0
      numTotal := 0, currentT := 0, time := ⊤, nextCt := 0, active := false, queue := []
      arrivals := [.infty], departures := [.infty]
      numBlocked := if c.kind = .server then s.numBlocked else 0, log := [], created := [], lost := [] } := by
  unfold clear
  rcases hk with hk | hk <;> simp [hk]

theorem QBase.init (c : QCfg T) (b : Bool) : QBase (QS.init c b) :=
  ⟨.single, .single, by simp [QS.init, nextTime, headTime, Slot.time]⟩

theorem QBase.step {c : QCfg T} {s s' : QS T} {op : QOp T} (hk : Simple c) (h : QBase s)
    (ho : OpOut c s op s') : QBase s' := by
  cases ho with
  | ev s' r _ h1 =>
    cases h1 with
    | idle _ _ h2 => rw [h2]; exact h
    | dep a _ h2 _ => exact ⟨by rw [h2.arrivals]; exact h.okA, h2.ok, h2.time⟩
    | arr a rest _ _ _ h2 _ => exact ⟨h2.okA, h2.okD, h2.time⟩
    | block a rest _ _ _ _ h2 _ => exact ⟨h2.okA, by rw [h2.departures]; exact h.okD, h2.time⟩
  | already => exact h
  | act arr ext ν act calls _ h1 h2 h3 => exact ⟨h2, h.okD, rfl⟩
  | inact => exact ⟨h.okA, h.okD, h.time⟩
  | srv n s' r h1 =>
    cases h1 with
    | typ => exact h
    | val => exact h
    | ok new k deps _ _ h4 h2 h3 =>
      refine ⟨h.okA, h2, ?_⟩
      simp only [nextTime]
      split
      · rfl
      · rename_i h0
        have hk0 : k = 0 := by omega
        subst hk0
        rw [h.time, nextTime, h.okD.headTime_congr h2 (by simpa [startServ] using h3.symm)]
  | delay t kb s' h1 =>
    cases h1 with
    | none => exact h
    | some a rest deps _ _ _ _ h2 _ => exact ⟨h.okA, h2, rfl⟩
  | collect => exact ⟨h.okA, h.okD, h.time⟩
  | noteFull => exact ⟨h.okA, h.okD, h.time⟩
  | noteOpen => exact h
  | clearData => exact ⟨h.okA, h.okD, h.time⟩
  | clear =>
    rw [clear_simple c s hk]
    exact ⟨.single, .single, by simp [nextTime, headTime, Slot.time]⟩
  | handover a arr h1 h2 h3 => exact ⟨h1, h.okD, rfl⟩

/-- Every history keeps the shape. -/
theorem Reach.base {c : QCfg T} {b : Bool} {ok : QS T → QOp T → Prop} {s : QS T} (hk : Simple c)
    (h : Reach c b ok s) : QBase s := by
  induction h with
  | init => exact .init c b
  | step op _ _ hr ih => exact ih.step hk (opOut _ _ _ op hk ih hr)

/-- Induction over histories with the outcome of each operation at hand. -/
theorem Reach.induct {c : QCfg T} {b : Bool} {ok : QS T → QOp T → Prop} {P : QS T → Prop} (hk : Simple c)
    (h0 : P (QS.init c b))
    (hs : ∀ s s' op, QBase s → P s → ok s op → OpOut c s op s' → P s')
    {s : QS T} (h : Reach c b ok s) : P s := by
  induction h with
  | init => exact h0
  | step op h1 h2 hr ih => exact hs _ _ op (h1.base hk) ih h2 (opOut _ _ _ op hk (h1.base hk) hr)

/-- Ids in the log entries of a stage. -/
def stageIds (n : Nat) (log : List ((Nat × Nat) × Nat)) : List (Nat × Nat) :=
  (log.filter fun p => p.2 = n).map Prod.fst

@[simp] theorem stageIds_append (n : Nat) (l l' : List ((Nat × Nat) × Nat)) :
    stageIds n (l ++ l') = stageIds n l ++ stageIds n l' := by
  simp [stageIds]

@[simp] theorem stageIds_nil (n : Nat) : stageIds n [] = [] := rfl

@[simp] theorem stageIds_cons (n : Nat) (p : (Nat × Nat) × Nat) (l : List ((Nat × Nat) × Nat)) :
    stageIds n (p :: l) = (if p.2 = n then [p.1] else []) ++ stageIds n l := by
  simp only [stageIds, List.filter_cons]
  by_cases h : p.2 = n <;> simp [h]

/-- The in-service agents' ids. -/
def inService (s : QS T) : List (Agent T) := agents s.departures

/-- Census, work conservation and the order of service. -/
structure QInv (s : QS T) : Prop where
  numSystem : s.numSystem = s.queue.length + (agents s.departures).length
  numTotal : s.numTotal = s.numSystem + (agents s.arrivals).length
  counts : (s.numArrivals : Int) = s.numDepartures + s.numSystem
  work : s.queue ≠ [] → s.numServers.lt (agents s.departures).length = false
  fifo : stageIds 1 s.log ++ s.queue.map (·.id) = stageIds 0 s.log
  once : (stageIds 1 s.log).Perm (stageIds 2 s.log ++ (agents s.departures).map (·.id))

theorem Cap.lt_false_of_le {n : Cap} {a b : Int} (h : n.lt a = false) (hab : a ≤ b) :
    n.lt b = false := by
  cases n with
  | inf => simp [Cap.lt] at h
  | fin m => simp [Cap.lt] at h ⊢; omega

theorem Cap.le_eq_lt (n : Cap) (a : Int) : n.le (a + 1) = n.lt a := by
  cases n with
  | inf => rfl
  | fin m => simp [Cap.lt, Cap.le]; omega

theorem QInv.init (c : QCfg T) (b : Bool) : QInv (QS.init c b) := by
  constructor <;> simp [QS.init]

theorem ExtSpec.length {c : QCfg T} {s s' : QS T} {t : T} {rest : List (Slot T)}
    (h : ExtSpec c s s' t rest) :
    ((agents s'.arrivals).length : Int) = (agents rest).length + (s'.oArrivals - s.oArrivals : Int) := by
  obtain ⟨ext, -, h2, h3, -⟩ := h
  have := h2.length_eq
  simp only [List.length_append] at this
  omega

theorem QInv.step {c : QCfg T} {s s' : QS T} {op : QOp T} (hk : Simple c) (hb : QBase s) (h : QInv s)
    (ho : OpOut c s op s') : QInv s' := by
  cases ho with
  | ev s' r _ h1 =>
    cases h1 with
    | idle _ _ h2 => rw [h2]; exact h
    | dep a _ h2 _ =>
      obtain ⟨deps, g1, g2, g3⟩ := h2.served
      have hlen := g1.length_eq
      simp only [List.length_cons] at hlen
      have hsys := h.numSystem
      rcases g3 with ⟨b, rest, e1, e2, e3, -, e4, e5, -⟩ | ⟨e1, e2, -, e3, e4, -⟩
      · have hl4 := e4.length_eq
        simp only [List.length_cons] at hl4
        have hq : s.queue.length = rest.length + 1 := by rw [e1]; rfl
        have hq' : s'.queue.length = rest.length := by rw [e3]
        have hsys' : s'.numSystem = s'.queue.length + (agents s'.departures).length := by
          rw [h2.numSystem, hsys, hl4]; omega
        refine ⟨hsys', ?_, ?_, ?_, ?_, ?_⟩
        · rw [h2.numTotal, h2.arrivals, h2.numSystem, h.numTotal]; omega
        · rw [h2.numArrivals, h2.numDepartures, h2.numSystem]; have := h.counts; push_cast; omega
        · intro _
          rw [h2.numServers]
          refine Cap.lt_false_of_le (h.work (by rw [e1]; simp)) ?_
          omega
        · have := h.fifo
          rw [e1] at this
          rw [e5, e3]
          simpa using this
        · rw [e5]
          simp only [stageIds_append, stageIds_cons, stageIds_nil]
          have p1 : ((agents s'.departures).map (·.id)).Perm (b.id :: (agents deps).map (·.id)) := by
            simpa using e4.map (fun x : Agent T => x.id)
          have p2 : ((agents s.departures).map (·.id)).Perm (a.id :: (agents deps).map (·.id)) := by
            simpa using g1.map (fun x : Agent T => x.id)
          have p3 := h.once.trans (List.Perm.append_left _ p2)
          simp
          refine (List.Perm.append_right _ p3).trans ?_
          refine List.Perm.trans ?_ (List.Perm.append_left _ (List.Perm.cons _ p1.symm))
          simp only [List.append_assoc, List.cons_append]
          refine List.Perm.append_left _ (List.Perm.cons _ ?_)
          exact List.perm_append_singleton _ _
      · have hq' : s'.queue.length = s.queue.length := by rw [e2]
        have hsys' : s'.numSystem = s'.queue.length + (agents s'.departures).length := by
          rw [h2.numSystem, hsys, e3]; omega
        refine ⟨hsys', ?_, ?_, ?_, ?_, ?_⟩
        · rw [h2.numTotal, h2.arrivals, h2.numSystem, h.numTotal]; omega
        · rw [h2.numArrivals, h2.numDepartures, h2.numSystem]; have := h.counts; push_cast; omega
        · intro hne
          rw [e2] at hne
          rcases e1 with e1 | e1
          · exact absurd e1 hne
          · rw [h2.numServers, e3]
            refine Cap.lt_false_of_le e1 ?_
            omega
        · rw [e4, e2]; simpa using h.fifo
        · rw [e4, e3]
          simp only [stageIds_append, stageIds_cons, stageIds_nil]
          have p2 : ((agents s.departures).map (·.id)).Perm (a.id :: (agents deps).map (·.id)) := by
            simpa using g1.map (fun x : Agent T => x.id)
          have p3 := h.once.trans (List.Perm.append_left _ p2)
          simpa using p3
    | arr a rest _ _ _ h2 _ =>
      have hsys := h.numSystem
      have hext := h2.ext.length
      have hperm := h2.perm.length_eq
      simp only [List.length_cons] at hperm
      have hT : s'.numTotal = s'.numSystem + (agents s'.arrivals).length := by
        rw [h2.numTotal, h2.numSystem, h.numTotal]; omega
      have hC : (s'.numArrivals : Int) = s'.numDepartures + s'.numSystem := by
        rw [h2.numArrivals, h2.numDepartures, h2.numSystem]; have := h.counts; push_cast; omega
      rcases h2.served with ⟨e1, e2, -, e3, e4, -⟩ | ⟨e1, e2, -, e3, e4, -⟩
      · have hl := e3.length_eq
        simp only [List.length_cons] at hl
        rw [Cap.le_eq_lt] at e1
        have hq0 : s.queue = [] := by
          by_contra hne
          have := Cap.lt_false_of_le (h.work hne) (b := s.numSystem) (by omega)
          rw [e1] at this; simp at this
        refine ⟨?_, hT, hC, ?_, ?_, ?_⟩
        · rw [h2.numSystem, hsys, e2, hl]; push_cast; omega
        · intro hne; rw [e2] at hne; exact absurd hq0 hne
        · have := h.fifo
          rw [e4, e2]
          rw [hq0] at this ⊢
          simp only [List.map_nil, List.append_nil] at this
          simp [this]
        · rw [e4]
          simp only [stageIds_append, stageIds_cons, stageIds_nil]
          have p1 : ((agents s'.departures).map (·.id)).Perm
              (a.id :: (agents s.departures).map (·.id)) := by
            simpa using e3.map (fun x : Agent T => x.id)
          simp
          refine (List.Perm.append_right _ h.once).trans ?_
          refine List.Perm.trans ?_ (List.Perm.append_left _ p1.symm)
          rw [List.append_assoc]
          exact List.Perm.append_left _ (List.perm_append_singleton _ _)
      · refine ⟨?_, hT, hC, ?_, ?_, ?_⟩
        · rw [h2.numSystem, hsys, e2, e3]; simp; omega
        · intro _
          rw [h2.numServers, e3]
          rw [Cap.le_eq_lt] at e1
          by_cases hne : s.queue = []
          · rw [hne] at hsys
            simp at hsys
            rw [← hsys]; exact e1
          · exact h.work hne
        · rw [e4, e2]
          have := h.fifo
          simp [← this]
        · rw [e4, e3]
          simpa using h.once
    | block a rest _ _ _ _ h2 _ =>
      have hext := h2.ext.length
      have hperm := h2.perm.length_eq
      simp only [List.length_cons] at hperm
      refine ⟨?_, ?_, ?_, ?_, ?_, ?_⟩
      · rw [h2.numSystem, h2.queue, h2.departures]; exact h.numSystem
      · rw [h2.numTotal, h2.numSystem, h.numTotal]; omega
      · rw [h2.numArrivals, h2.numDepartures, h2.numSystem]; exact h.counts
      · rw [h2.queue, h2.numServers, h2.departures]; exact h.work
      · rw [h2.log, h2.queue]; exact h.fifo
      · rw [h2.log, h2.departures]; exact h.once
  | already => exact h
  | act arr ext ν act calls _ h1 h2 h3 =>
    refine ⟨h.numSystem, ?_, h.counts, h.work, h.fifo, h.once⟩
    have := h3.length_eq
    simp only [List.length_append] at this
    have := h.numTotal
    simp only
    omega
  | inact => exact ⟨h.numSystem, h.numTotal, h.counts, h.work, h.fifo, h.once⟩
  | srv n s' r h1 =>
    cases h1 with
    | typ => exact h
    | val => exact h
    | ok new k deps hnew hag hkl h2 h3 =>
      have hsys := h.numSystem
      have hl := h3.length_eq
      simp only [List.length_append, startServ_length, List.length_take, Nat.min_eq_left hkl] at hl
      refine ⟨?_, h.numTotal, h.counts, ?_, ?_, ?_⟩
      · simp only [List.length_drop]; omega
      · intro hne
        simp only at hne ⊢
        have hlt : k < s.queue.length := by
          by_contra hc
          exact hne (List.drop_eq_nil_of_le (by omega))
        have hw := h.work (by intro h0; rw [h0] at hlt; simp at hlt)
        unfold agentsToQueue at hag
        split at hag
        · rename_i n' m' heq
          rw [heq] at hw
          simp only [Option.some.injEq] at hag
          simp only [Cap.lt, decide_eq_false_iff_not, not_lt] at hw ⊢
          omega
        · simp only [Option.some.injEq] at hag; omega
        · rename_i heq
          rw [heq] at hw
          simp [Cap.lt] at hw
        · simp at hag
      · simp only [stageIds_append]
        have e1 : stageIds 1 ((s.queue.take k).map fun a => (a.id, 1)) = (s.queue.take k).map (·.id) := by
          induction s.queue.take k with
          | nil => rfl
          | cons x l ih => simp [ih]
        have e0 : stageIds 0 ((s.queue.take k).map fun a => (a.id, 1)) = [] := by
          induction s.queue.take k with
          | nil => rfl
          | cons x l ih => simp [ih]
        rw [e0, e1, List.append_nil, List.append_assoc, ← List.map_append, List.take_append_drop]
        exact h.fifo
      · simp only [stageIds_append]
        have e1 : stageIds 1 ((s.queue.take k).map fun a => (a.id, 1)) = (s.queue.take k).map (·.id) := by
          induction s.queue.take k with
          | nil => rfl
          | cons x l ih => simp [ih]
        have e2 : stageIds 2 ((s.queue.take k).map fun a => (a.id, 1)) = [] := by
          induction s.queue.take k with
          | nil => rfl
          | cons x l ih => simp [ih]
        rw [e2, e1, List.append_nil]
        have p1 := h3.map (fun x : Agent T => x.id)
        simp only [List.map_append, startServ_ids] at p1
        refine (List.Perm.append_right _ h.once).trans ?_
        refine List.Perm.trans ?_ (List.Perm.append_left _ p1.symm)
        rw [List.append_assoc]
        exact List.Perm.append_left _ List.perm_append_comm
  | delay t kb s' h1 =>
    cases h1 with
    | none => exact h
    | some a rest deps _ _ _ h4 h2 h3 =>
      have hl := h3.length_eq
      have hl' := h4.length_eq
      simp only [List.length_cons] at hl hl'
      have hll : (agents deps).length = (agents s.departures).length := by omega
      refine ⟨?_, h.numTotal, h.counts, ?_, h.fifo, ?_⟩
      · simp only [hll]; exact h.numSystem
      · simp only [hll]; exact h.work
      · refine h.once.trans (List.Perm.append_left _ ?_)
        have p1 := h3.map (fun x : Agent T => x.id)
        have p2 := h4.map (fun x : Agent T => x.id)
        simp only [List.map_cons] at p1 p2
        exact p2.trans p1.symm
  | collect => exact ⟨h.numSystem, h.numTotal, h.counts, h.work, h.fifo, h.once⟩
  | noteFull => exact ⟨h.numSystem, h.numTotal, h.counts, h.work, h.fifo, h.once⟩
  | noteOpen => exact h
  | clearData => exact ⟨h.numSystem, h.numTotal, h.counts, h.work, h.fifo, h.once⟩
  | clear =>
    rw [clear_simple c s hk]
    constructor <;> simp
  | handover a arr h1 h2 h3 =>
    refine ⟨h.numSystem, ?_, h.counts, h.work, h.fifo, h.once⟩
    have := h2.length_eq
    simp only [List.length_cons] at this
    have := h.numTotal
    simp only
    omega

theorem Reach.inv {c : QCfg T} {b : Bool} {ok : QS T → QOp T → Prop} {s : QS T} (hk : Simple c)
    (h : Reach c b ok s) : QInv s :=
  h.induct hk (QInv.init c b) fun _ _ _ hb hi _ ho => hi.step hk hb ho

end Verif
