import Verif.Forget

/-!
# The functions of the model commute with maps of time (for C125, C126)

`f` maps times to times, keeps their order, `0` and infinity.  A queue whose functions are conjugated by `f` does the
same things at the mapped times.  The array cells of the scheduler beyond its size are left free.
-/

set_option linter.unusedSectionVars false
set_option linter.unusedSimpArgs false

namespace Verif

/-! ## Heaps -/

section Heaps

variable {α β T T' : Type*} [LinearOrder T] [LinearOrder T']

/-- The two keys order the elements alike. -/
def KeysAgree (g : α → β) (key : α → T) (key' : β → T') : Prop := ∀ a b, key' (g a) < key' (g b) ↔ key a < key b

theorem setChk_map (g : α → β) (l : List α) (i : Nat) (x : α) :
    setChk (l.map g) i (g x) = (setChk l i x).map (List.map g) := by
  unfold setChk
  by_cases h : i < l.length
  · simp [h, List.map_set]
  · simp [h]

theorem siftdownLoop_map {g : α → β} {key : α → T} {key' : β → T'} (hk : KeysAgree g key key') (x : α) (st : Nat) :
    ∀ (fuel : Nat) (l : List α) (pos : Nat),
      siftdownLoop key' (g x) st fuel (l.map g) pos = (siftdownLoop key x st fuel l pos).map (List.map g) := by
  intro fuel
  induction fuel with
  | zero => intro l pos; rfl
  | succ fuel ih =>
    intro l pos
    simp only [siftdownLoop, List.getElem?_map]
    by_cases h : st < pos
    · simp only [h, if_true]
      cases l[(pos - 1) / 2]? with
      | none => rfl
      | some p =>
        simp only [Option.map_some, setChk_map]
        by_cases h2 : key x < key p
        · simp only [h2, (hk x p).2 h2, if_true]
          cases setChk l pos p with
          | none => rfl
          | some l' => exact ih l' _
        · rw [if_neg h2, if_neg (mt (hk x p).1 h2)]
    · simp only [h, if_false, setChk_map]

theorem siftdown_map {g : α → β} {key : α → T} {key' : β → T'} (hk : KeysAgree g key key') (l : List α) (st pos : Nat) :
    siftdown key' (l.map g) st pos = (siftdown key l st pos).map (List.map g) := by
  unfold siftdown
  simp only [List.getElem?_map]
  cases l[pos]? with
  | none => rfl
  | some x => exact siftdownLoop_map hk x st _ l pos

theorem smallerChild_map {g : α → β} {key : α → T} {key' : β → T'} (hk : KeysAgree g key key') (l : List α) (i n : Nat) :
    smallerChild key' (l.map g) i n = smallerChild key l i n := by
  unfold smallerChild
  simp only [List.getElem?_map]
  cases l[i]? with
  | none => rfl
  | some a =>
    cases l[i + 1]? with
    | none => rfl
    | some b => simp only [Option.map_some, hk a b]

theorem siftupLoop_map {g : α → β} {key : α → T} {key' : β → T'} (hk : KeysAgree g key key') (x : α) (st n : Nat) :
    ∀ (fuel : Nat) (l : List α) (pos : Nat),
      siftupLoop key' (g x) st n fuel (l.map g) pos = (siftupLoop key x st n fuel l pos).map (List.map g) := by
  intro fuel
  induction fuel with
  | zero => intro l pos; rfl
  | succ fuel ih =>
    intro l pos
    simp only [siftupLoop, smallerChild_map hk, setChk_map]
    by_cases h : 2 * pos + 1 < n
    · simp only [h, if_true]
      cases smallerChild key l (2 * pos + 1) n with
      | none => rfl
      | some c =>
        simp only [List.getElem?_map]
        cases l[c]? with
        | none => rfl
        | some y =>
          simp only [Option.map_some, setChk_map]
          cases setChk l pos y with
          | none => rfl
          | some l' => exact ih l' _
    · simp only [h, if_false]
      cases setChk l pos x with
      | none => rfl
      | some l' => exact siftdown_map hk l' _ _

theorem siftup_map {g : α → β} {key : α → T} {key' : β → T'} (hk : KeysAgree g key key') (l : List α) (pos n : Nat) :
    siftup key' (l.map g) pos n = (siftup key l pos n).map (List.map g) := by
  unfold siftup
  simp only [List.getElem?_map]
  cases l[pos]? with
  | none => rfl
  | some x => exact siftupLoop_map hk x _ _ _ l pos

theorem heapify_map {g : α → β} {key : α → T} {key' : β → T'} (hk : KeysAgree g key key') (l : List α) (n : Nat) :
    heapify key' (l.map g) n = (heapify key l n).map (List.map g) := by
  have : ∀ (m : Nat) (l : List α), heapifyLoop key' n m (l.map g) = (heapifyLoop key n m l).map (List.map g) := by
    intro m
    induction m with
    | zero => intro l; rfl
    | succ m ih =>
      intro l
      simp only [heapifyLoop, siftup_map hk]
      cases siftup key l m n with
      | none => rfl
      | some l' => exact ih l'
  exact this _ l

theorem heappush_map {g : α → β} {key : α → T} {key' : β → T'} (hk : KeysAgree g key key') (l : List α) (x : α) :
    heappush key' (l.map g) (g x) = (heappush key l x).map (List.map g) := by
  unfold heappush
  rw [← siftdown_map hk]
  simp

theorem heappop_map {g : α → β} {key : α → T} {key' : β → T'} (hk : KeysAgree g key key') (l : List α) :
    heappop key' (l.map g) = (heappop key l).map fun p => (g p.1, p.2.map g) := by
  unfold heappop
  simp only [List.getLast?_map, ← List.map_dropLast]
  cases l.getLast? with
  | none => rfl
  | some last =>
    simp only [Option.map_some]
    cases l.dropLast with
    | nil => rfl
    | cons top rest =>
      simp only [List.map_cons, List.set_cons_zero, List.length_cons, List.length_map]
      have := siftup_map hk (last :: rest) 0 (rest.length + 1)
      simp only [List.map_cons] at this
      rw [this]
      cases siftup key (last :: rest) 0 (rest.length + 1) <;> rfl

/-! ### Cells beyond the size -/

theorem setChk_append (p q : List α) {i : Nat} (h : i < p.length) (x : α) :
    setChk (p ++ q) i x = (setChk p i x).map (· ++ q) := by
  unfold setChk
  simp [h, Nat.lt_of_lt_of_le h, Nat.lt_add_right, List.set_append_left]

theorem setChk_length {l l' : List α} {i : Nat} {x : α} (h : setChk l i x = some l') : l'.length = l.length := by
  unfold setChk at h
  split at h
  · simp only [Option.some.injEq] at h; rw [← h]; simp
  · simp at h

theorem siftdownLoop_append (key : α → T) (x : α) (st : Nat) (q : List α) :
    ∀ (fuel : Nat) (p : List α) (pos : Nat), pos < p.length →
      siftdownLoop key x st fuel (p ++ q) pos = (siftdownLoop key x st fuel p pos).map (· ++ q) := by
  intro fuel
  induction fuel with
  | zero => intro p pos _; rfl
  | succ fuel ih =>
    intro p pos hp
    simp only [siftdownLoop]
    rw [List.getElem?_append_left (by omega)]
    by_cases h : st < pos
    · simp only [h, if_true]
      cases p[(pos - 1) / 2]? with
      | none => rfl
      | some y =>
        simp only [setChk_append p q hp]
        by_cases h2 : key x < key y
        · simp only [h2, if_true]
          cases h3 : setChk p pos y with
          | none => rfl
          | some l' => exact ih l' _ (by rw [setChk_length h3]; omega)
        · simp only [h2, if_false]
    · simp only [h, if_false, setChk_append p q hp]

theorem siftdown_append (key : α → T) (p q : List α) (st : Nat) {pos : Nat} (hp : pos < p.length) :
    siftdown key (p ++ q) st pos = (siftdown key p st pos).map (· ++ q) := by
  unfold siftdown
  rw [List.getElem?_append_left hp]
  cases p[pos]? with
  | none => rfl
  | some x => exact siftdownLoop_append key x st q _ p pos hp

theorem smallerChild_append (key : α → T) (p q : List α) {i n : Nat} (hn : n ≤ p.length) :
    smallerChild key (p ++ q) i n = smallerChild key p i n := by
  unfold smallerChild
  by_cases h : i + 1 < n
  · rw [List.getElem?_append_left (by omega), List.getElem?_append_left (by omega)]
  · simp only [h, if_false]

theorem smallerChild_lt {key : α → T} {l : List α} {i n c : Nat} (hi : i < n) (h : smallerChild key l i n = some c) :
    c < n := by
  unfold smallerChild at h
  split at h
  · split at h
    · simp only [Option.some.injEq] at h
      rw [← h]; split <;> omega
    · simp at h
  · simp only [Option.some.injEq] at h; omega

theorem siftupLoop_append (key : α → T) (x : α) (st n : Nat) (q : List α) :
    ∀ (fuel : Nat) (p : List α) (pos : Nat), pos < n → n ≤ p.length →
      siftupLoop key x st n fuel (p ++ q) pos = (siftupLoop key x st n fuel p pos).map (· ++ q) := by
  intro fuel
  induction fuel with
  | zero => intro p pos _ _; rfl
  | succ fuel ih =>
    intro p pos hp hn
    simp only [siftupLoop]
    by_cases h : 2 * pos + 1 < n
    · simp only [h, if_true, smallerChild_append key p q hn]
      cases hc : smallerChild key p (2 * pos + 1) n with
      | none => rfl
      | some c =>
        have hcn := smallerChild_lt h hc
        simp only
        rw [List.getElem?_append_left (by omega)]
        cases p[c]? with
        | none => rfl
        | some y =>
          simp only [setChk_append p q (show pos < p.length by omega)]
          cases h3 : setChk p pos y with
          | none => rfl
          | some l' => exact ih l' _ hcn (by rw [setChk_length h3]; omega)
    · simp only [h, if_false, setChk_append p q (show pos < p.length by omega)]
      cases h3 : setChk p pos x with
      | none => rfl
      | some l' => exact siftdown_append key l' q st (by rw [setChk_length h3]; omega)

theorem siftup_append (key : α → T) (p q : List α) {pos n : Nat} (hp : pos < n) (hn : n ≤ p.length) :
    siftup key (p ++ q) pos n = (siftup key p pos n).map (· ++ q) := by
  unfold siftup
  rw [List.getElem?_append_left (by omega)]
  cases p[pos]? with
  | none => rfl
  | some x => exact siftupLoop_append key x _ _ q _ p pos hp hn

theorem siftdownLoop_length {key : α → T} {x : α} {st : Nat} : ∀ (fuel : Nat) {l l' : List α} {pos : Nat},
    siftdownLoop key x st fuel l pos = some l' → l'.length = l.length := by
  intro fuel
  induction fuel with
  | zero => intro l l' pos h; simp [siftdownLoop] at h
  | succ fuel ih =>
    intro l l' pos h
    simp only [siftdownLoop] at h
    split at h
    · split at h
      · simp at h
      · split at h
        · split at h
          · simp at h
          · rename_i h2
            rw [ih h, setChk_length h2]
        · exact setChk_length h
    · exact setChk_length h

theorem siftdown_length {key : α → T} {st pos : Nat} {l l' : List α} (h : siftdown key l st pos = some l') :
    l'.length = l.length := by
  unfold siftdown at h
  split at h
  · simp at h
  · exact siftdownLoop_length _ h

theorem siftup_length {key : α → T} {n pos : Nat} {l l' : List α} (h : siftup key l pos n = some l') :
    l'.length = l.length := by
  have : ∀ (fuel : Nat) (x : α) (st : Nat) {l l' : List α} {pos : Nat},
      siftupLoop key x st n fuel l pos = some l' → l'.length = l.length := by
    intro fuel x st
    induction fuel with
    | zero => intro l l' pos h; simp [siftupLoop] at h
    | succ fuel ih =>
      intro l l' pos h
      simp only [siftupLoop] at h
      split at h
      · split at h
        · simp at h
        · split at h
          · simp at h
          · split at h
            · simp at h
            · rename_i h2
              rw [ih h, setChk_length h2]
      · split at h
        · simp at h
        · rename_i h2
          rw [siftdown_length h, setChk_length h2]
  unfold siftup at h
  split at h
  · simp at h
  · exact this _ _ _ h

end Heaps

/-! ## One queue -/

section Queues

variable {T T' : Type*} [LinearOrder T] [OrderTop T] [Zero T] [LinearOrder T'] [OrderTop T'] [Zero T']

/-- A map of times that keeps the order, zero and infinity. -/
structure TimeMap (f : T → T') : Prop where
  lt : ∀ a b, f a < f b ↔ a < b
  top : f ⊤ = ⊤
  zero : f 0 = 0

theorem TimeMap.le {f : T → T'} (h : TimeMap f) (a b : T) : f a ≤ f b ↔ a ≤ b := by
  rw [← not_lt, ← not_lt, h.lt]

theorem TimeMap.inj {f : T → T'} (h : TimeMap f) {a b : T} : f a = f b ↔ a = b := by
  constructor
  · intro e
    exact le_antisymm ((h.le a b).1 e.le) ((h.le b a).1 e.ge)
  · intro e; rw [e]

theorem TimeMap.lt_top {f : T → T'} (h : TimeMap f) (a : T) : f a < ⊤ ↔ a < ⊤ := by
  rw [← h.top, h.lt]

/-- The agent at the mapped time. -/
def Agent.map (f : T → T') (a : Agent T) : Agent T' := ⟨a.id, f a.time, a.blocked, a.kind⟩

def Slot.map (f : T → T') : Slot T → Slot T'
  | .infty => .infty
  | .agent a => .agent (a.map f)

def Row.map (f : T → T') (r : Row T) : Row T' := ⟨f r.arr, f r.start, f r.dep, r.nq, r.nsys⟩

def Data.map (f : T → T') (d : Data T) : Data T' := List.map (fun p => (p.1, p.2.map (Row.map f))) d

/-- The queue with all times mapped. -/
def QS.map (f : T → T') (s : QS T) : QS T' where
  numServers := s.numServers
  collectData := s.collectData
  numDepartures := s.numDepartures
  numSystem := s.numSystem
  data := s.data.map f
  queue := s.queue.map (Agent.map f)
  arrivals := s.arrivals.map (Slot.map f)
  departures := s.departures.map (Slot.map f)
  numArrivals := s.numArrivals
  oArrivals := s.oArrivals
  numTotal := s.numTotal
  active := s.active
  currentT := f s.currentT
  time := f s.time
  nextCt := f s.nextCt
  numBlocked := s.numBlocked
  overMax := s.overMax
  arrCalls := s.arrCalls
  svcCalls := s.svcCalls
  log := s.log
  created := s.created.map fun p => (p.1, f p.2)
  lost := s.lost.map (Agent.map f)

/-- Two queues built alike, the functions of the second doing at mapped times what those of the first do. -/
structure QCfg.Conj (f : T → T') (c : QCfg T) (c' : QCfg T') : Prop where
  kind : c'.kind = c.kind
  edge : c'.edge = c.edge
  servers : c'.servers = c.servers
  arrivalF : ∀ i t, c'.arrivalF i (f t) = f (c.arrivalF i t)
  serviceF : ∀ i t, c'.serviceF i (f t) = f (c.serviceF i t)
  factory : c'.factory = c.factory
  activeCap : c'.activeCap = c.activeCap
  deactiveT : c'.deactiveT = f c.deactiveT
  buffer : c'.buffer = c.buffer
  maxServers : c'.maxServers = c.maxServers

def mapE (f : T → T') : Except Err (QS T) → Except Err (QS T')
  | .error e => .error e
  | .ok s => .ok (s.map f)

def mapE2 (f : T → T') : Except Err (QS T × Option (Agent T)) → Except Err (QS T' × Option (Agent T'))
  | .error e => .error e
  | .ok (s, r) => .ok (s.map f, r.map (Agent.map f))

theorem QS.init_map {f : T → T'} (hf : TimeMap f) {c : QCfg T} {c' : QCfg T'} (hc : c.Conj f c') (b : Bool) :
    QS.init c' b = (QS.init c b).map f := by
  simp only [QS.init, QS.map, hc.servers, hf.zero, hf.top]
  rfl

theorem Slot.map_time {f : T → T'} (hf : TimeMap f) (s : Slot T) : (s.map f).time = f s.time := by
  cases s
  · exact hf.top.symm
  · rfl

theorem slot_keys {f : T → T'} (hf : TimeMap f) : KeysAgree (Slot.map f) Slot.time (Slot.time (T := T')) := by
  intro a b
  rw [Slot.map_time hf, Slot.map_time hf, hf.lt]

theorem headTime_map {f : T → T'} (hf : TimeMap f) (l : List (Slot T)) :
    headTime (l.map (Slot.map f)) = f (headTime l) := by
  cases l
  · exact hf.top.symm
  · exact Slot.map_time hf _

theorem updateTime_map {f : T → T'} (hf : TimeMap f) (s : QS T) : updateTime (s.map f) = (updateTime s).map f := by
  simp only [updateTime, QS.map, headTime_map hf, hf.lt]
  congr 1
  rw [apply_ite f]

theorem bumpTime_map {f : T → T'} (hf : TimeMap f) (s : QS T) : bumpTime (s.map f) = (bumpTime s).map f := by
  simp only [bumpTime, QS.map, headTime_map hf, hf.lt]
  congr 1
  rw [apply_ite f]

theorem modLast_map {α β : Type*} (g : α → β) (h : α → α) (h' : β → β) (hh : ∀ a, h' (g a) = g (h a)) (l : List α) :
    modLast h' (l.map g) = (modLast h l).map g := by
  induction l with
  | nil => rfl
  | cons x xs ih =>
    cases xs with
    | nil => simp only [List.map_cons, List.map_nil, modLast, hh]
    | cons y ys => simp only [List.map_cons, modLast] at ih ⊢; rw [ih]

theorem Data.append_map (f : T → T') (d : Data T) (id : Nat × Nat) (r : Row T) :
    (d.map f).append id (r.map f) = (d.append id r).map f := by
  induction d with
  | nil => rfl
  | cons p d ih =>
    obtain ⟨i, rs⟩ := p
    simp only [Data.map, List.map_cons, Data.append] at ih ⊢
    by_cases h : i = id
    · simp only [h, if_true, List.map_cons, List.map_append, List.map_nil]
    · simp only [h, if_false, List.map_cons, ih]

theorem Data.modify_map (f : T → T') (d : Data T) (id : Nat × Nat) (h : Row T → Row T) (h' : Row T' → Row T')
    (hh : ∀ r, h' (r.map f) = (h r).map f) : (d.map f).modify id h' = (d.modify id h).map f := by
  induction d with
  | nil => rfl
  | cons p d ih =>
    obtain ⟨i, rs⟩ := p
    simp only [Data.map, List.map_cons, Data.modify] at ih ⊢
    by_cases e : i = id
    · simp only [e, if_true, List.map_cons, modLast_map (Row.map f) h h' hh]
    · simp only [e, if_false, List.map_cons, ih]

theorem addArrivalAgent_map {f : T → T'} (hf : TimeMap f) {c : QCfg T} {c' : QCfg T'} (hc : c.Conj f c') (s : QS T)
    (a : Agent T) : addArrivalAgent c' (s.map f) (a.map f) = mapE f (addArrivalAgent c s a) := by
  unfold addArrivalAgent
  rw [hc.kind, apply_ite (mapE f)]
  refine if_congr Iff.rfl ?_ ?_
  · have h := Data.append_map f s.data a.id ⟨a.time, 0, 0, 0, 0⟩
    simp only [Row.map, hf.zero] at h
    simp only [mapE, apply_ite (QS.map f)]
    congr 1
    refine if_congr Iff.rfl ?_ rfl
    simp only [QS.map, ← h]
    rfl
  · have h := heappush_map (slot_keys hf) s.arrivals (.agent a)
    simp only [QS.map, Slot.map] at h ⊢
    rw [h]
    cases heappush Slot.time s.arrivals (.agent a) with
    | none => rfl
    | some arr => exact congrArg Except.ok (bumpTime_map hf { s with numTotal := s.numTotal + 1, arrivals := arr })

theorem addArrival_map {f : T → T'} (hf : TimeMap f) {c : QCfg T} {c' : QCfg T'} (hc : c.Conj f c') (s : QS T) :
    addArrival c' (s.map f) = mapE f (addArrival c s) := by
  unfold addArrival
  rw [hc.kind, apply_ite (mapE f), apply_ite (mapE f)]
  refine if_congr Iff.rfl rfl (if_congr (hf.le _ _) ?_ (congrArg Except.ok (bumpTime_map hf s)))
  have e : c'.arrivalF (s.map f).arrCalls (s.map f).currentT = f (c.arrivalF s.arrCalls s.currentT) :=
    hc.arrivalF _ _
  simp only [e, hc.deactiveT, hc.edge, hc.factory, hc.activeCap, hf.le]
  rw [apply_ite (mapE f)]
  refine if_congr Iff.rfl rfl ?_
  have h := heappush_map (slot_keys hf) s.arrivals
    (.agent ⟨(c.edge.idx, s.oArrivals), c.arrivalF s.arrCalls s.currentT, 0, c.factory⟩)
  simp only [QS.map, Slot.map, Agent.map] at h ⊢
  rw [h]
  cases heappush Slot.time s.arrivals
      (.agent ⟨(c.edge.idx, s.oArrivals), c.arrivalF s.arrCalls s.currentT, 0, c.factory⟩) with
  | none => rfl
  | some arr =>
    simp only [Option.map_some, mapE]
    rw [← bumpTime_map hf, apply_ite (QS.map f)]
    simp only [QS.map, List.map_append, List.map_cons, List.map_nil]
    rfl

theorem queueAction_map (f : T → T') {c : QCfg T} {c' : QCfg T'} (hc : c.Conj f c') (s : QS T) (a : Agent T) (i : Nat) :
    queueAction c' (s.map f) (a.map f) i = ((queueAction c s a i).1.map f, (queueAction c s a i).2.map f) := by
  obtain ⟨id, tm, bl, k⟩ := a
  unfold queueAction
  rw [hc.kind]
  simp only [Agent.map]
  cases c.kind <;> cases k <;> try rfl
  rename_i has had
  cases has
  · cases h : Cap.lt 0 s.numServers
    · simp only [QS.map, h, Bool.false_eq_true, if_false]
    · simp only [QS.map, h, Bool.false_eq_true, if_false, if_true, hc.maxServers]
  · rfl

/-- The end of a service start: the agent enters the heap of departures. -/
def enter (c : QCfg T) (s : QS T) (a : Agent T) : Except Err (QS T) :=
  match heappush Slot.time (queueAction c s a 1).1.departures (.agent (queueAction c s a 1).2) with
  | none => .error .indexError
  | some deps => .ok { (queueAction c s a 1).1 with departures := deps }

theorem enter_map {f : T → T'} (hf : TimeMap f) {c : QCfg T} {c' : QCfg T'} (hc : c.Conj f c') (s : QS T)
    (a : Agent T) : enter c' (s.map f) (a.map f) = mapE f (enter c s a) := by
  unfold enter
  rw [queueAction_map f hc]
  generalize queueAction c s a 1 = p
  obtain ⟨s, a⟩ := p
  have h := heappush_map (slot_keys hf) s.departures (.agent a)
  simp only [Slot.map] at h
  simp only [QS.map, h]
  cases heappush Slot.time s.departures (.agent a) <;> rfl

theorem data_start (f : T → T') (s : QS T) (id : Nat × Nat) (t : T) :
    ({ s with data := s.data.modify id fun r => { r with start := t } } : QS T).map f =
      { s.map f with data := (s.map f).data.modify id fun r => { r with start := f t } } := by
  have h := Data.modify_map f s.data id (fun r => { r with start := t }) (fun r => { r with start := f t }) fun _ => rfl
  simp only [QS.map, h]

theorem data_dep (f : T → T') (s : QS T) (id : Nat × Nat) (t : T) :
    ({ s with data := s.data.modify id fun r => { r with dep := t } } : QS T).map f =
      { s.map f with data := (s.map f).data.modify id fun r => { r with dep := f t } } := by
  have h := Data.modify_map f s.data id (fun r => { r with dep := t }) (fun r => { r with dep := f t }) fun _ => rfl
  simp only [QS.map, h]

theorem data_append (f : T → T') (s : QS T) (id : Nat × Nat) (r : Row T) :
    ({ s with data := s.data.append id r } : QS T).map f =
      { s.map f with data := (s.map f).data.append id (r.map f) } := by
  simp only [QS.map, Data.append_map]

/-- Write the beginning of a service, if data are collected. -/
def noteStart (s : QS T) (id : Nat × Nat) (t : T) : QS T :=
  if s.collectData then { s with data := s.data.modify id fun r => { r with start := t } } else s

/-- Write a departure, if data are collected. -/
def noteDep (s : QS T) (id : Nat × Nat) (t : T) : QS T :=
  if s.collectData then { s with data := s.data.modify id fun r => { r with dep := t } } else s

theorem noteStart_map (f : T → T') (s : QS T) (id : Nat × Nat) (t : T) :
    noteStart (s.map f) id (f t) = (noteStart s id t).map f := by
  unfold noteStart
  rw [apply_ite (QS.map f), data_start]
  rfl

theorem noteDep_map (f : T → T') (s : QS T) (id : Nat × Nat) (t : T) :
    noteDep (s.map f) id (f t) = (noteDep s id t).map f := by
  unfold noteDep
  rw [apply_ite (QS.map f), data_dep]
  rfl

/-- Begin a service at time `t`. -/
def begin (c : QCfg T) (s : QS T) (a : Agent T) (t : T) : Except Err (QS T) :=
  enter c { s with svcCalls := s.svcCalls + 1 } { a with time := c.serviceF s.svcCalls t }

theorem begin_map {f : T → T'} (hf : TimeMap f) {c : QCfg T} {c' : QCfg T'} (hc : c.Conj f c') (s : QS T)
    (a : Agent T) (t : T) : begin c' (s.map f) (a.map f) (f t) = mapE f (begin c s a t) := by
  have h := enter_map hf hc { s with svcCalls := s.svcCalls + 1 } { a with time := c.serviceF s.svcCalls t }
  simp only [Agent.map, ← hc.serviceF] at h
  exact h

theorem serviceFromQueue_eq (c : QCfg T) (s : QS T) {a : Agent T} {rest : List (Agent T)} (hq : s.queue = a :: rest) :
    serviceFromQueue c s = begin c (noteStart { s with queue := rest } a.id s.currentT) a
      (noteStart { s with queue := rest } a.id s.currentT).currentT := by
  unfold serviceFromQueue
  rw [hq]
  rfl

theorem serviceFromQueue_map {f : T → T'} (hf : TimeMap f) {c : QCfg T} {c' : QCfg T'} (hc : c.Conj f c') (s : QS T) :
    serviceFromQueue c' (s.map f) = mapE f (serviceFromQueue c s) := by
  cases hq : s.queue with
  | nil =>
    unfold serviceFromQueue
    have e0 : (s.map f).queue = s.queue.map (Agent.map f) := rfl
    rw [e0, hq]
    rfl
  | cons a rest =>
    have e0 : (s.map f).queue = a.map f :: rest.map (Agent.map f) := by
      show s.queue.map (Agent.map f) = _
      rw [hq]; rfl
    rw [serviceFromQueue_eq c s hq, serviceFromQueue_eq c' (s.map f) e0]
    have h1 := noteStart_map f { s with queue := rest } a.id s.currentT
    have h2 : noteStart { s.map f with queue := rest.map (Agent.map f) } (a.map f).id (s.map f).currentT =
      (noteStart { s with queue := rest } a.id s.currentT).map f := h1
    rw [h2]
    exact begin_map hf hc _ a _

/-- The end of `departEvent`. -/
def depTail (c : QCfg T) (s : QS T) (a : Agent T) : Except Err (QS T × Option (Agent T)) :=
  match (if 0 < s.queue.length ∧ s.numServers.lt (s.numSystem - s.queue.length) then serviceFromQueue c s
         else .ok s) with
  | .error e => .error e
  | .ok s => .ok (updateTime (queueAction c s a 2).1, some (queueAction c s a 2).2)

theorem depTail_map {f : T → T'} (hf : TimeMap f) {c : QCfg T} {c' : QCfg T'} (hc : c.Conj f c') (s : QS T)
    (a : Agent T) : depTail c' (s.map f) (a.map f) = mapE2 f (depTail c s a) := by
  unfold depTail
  rw [serviceFromQueue_map hf hc]
  have he : (if 0 < (s.map f).queue.length ∧ (s.map f).numServers.lt ((s.map f).numSystem - (s.map f).queue.length) then
        mapE f (serviceFromQueue c s) else .ok (s.map f)) =
      mapE f (if 0 < s.queue.length ∧ s.numServers.lt (s.numSystem - s.queue.length) then serviceFromQueue c s else .ok s) := by
    rw [apply_ite (mapE f)]
    simp only [QS.map, List.length_map]
    rfl
  rw [he]
  cases (if 0 < s.queue.length ∧ s.numServers.lt (s.numSystem - s.queue.length) then serviceFromQueue c s else .ok s) with
  | error e => rfl
  | ok s => simp only [mapE, mapE2, queueAction_map f hc, updateTime_map hf, Option.map_some]

theorem departEvent_eq (c : QCfg T) (s : QS T) : departEvent c s = match heappop Slot.time s.departures with
    | none => .error .indexError
    | some (.infty, _) => .error .attributeError
    | some (.agent a, deps) => depTail c (noteDep { s with
        departures := deps
        currentT := a.time
        numTotal := s.numTotal - 1
        numSystem := s.numSystem - 1
        numDepartures := s.numDepartures + 1 } a.id a.time) a := rfl

theorem departEvent_map {f : T → T'} (hf : TimeMap f) {c : QCfg T} {c' : QCfg T'} (hc : c.Conj f c') (s : QS T) :
    departEvent c' (s.map f) = mapE2 f (departEvent c s) := by
  rw [departEvent_eq, departEvent_eq]
  have e0 : (s.map f).departures = s.departures.map (Slot.map f) := rfl
  rw [e0, heappop_map (slot_keys hf)]
  cases heappop Slot.time s.departures with
  | none => rfl
  | some p =>
    obtain ⟨_ | a, deps⟩ := p
    · rfl
    simp only [Option.map_some, Slot.map]
    rw [← depTail_map hf hc, ← noteDep_map]
    rfl

theorem extPart_map {f : T → T'} (hf : TimeMap f) {c : QCfg T} {c' : QCfg T'} (hc : c.Conj f c') (s : QS T) :
    extPart c' (s.map f) = mapE f (extPart c s) := by
  unfold extPart
  rw [addArrival_map hf hc, apply_ite (mapE f)]; rfl

theorem arrTail_eq (c : QCfg T) (s : QS T) (a : Agent T) : arrTail c s a = if s.numServers.le s.numSystem then
      match begin c (noteStart s a.id a.time) a a.time with
      | .error e => .error e
      | .ok s => .ok (updateTime s, none)
    else .ok (updateTime { s with queue := s.queue ++ [a] }, none) := by
  unfold arrTail begin enter
  refine if_congr Iff.rfl ?_ rfl
  show (match heappush Slot.time (queueAction c { noteStart s a.id a.time with svcCalls := (noteStart s a.id a.time).svcCalls + 1 }
        { a with time := c.serviceF (noteStart s a.id a.time).svcCalls a.time } 1).1.departures
        (.agent (queueAction c { noteStart s a.id a.time with svcCalls := (noteStart s a.id a.time).svcCalls + 1 }
        { a with time := c.serviceF (noteStart s a.id a.time).svcCalls a.time } 1).2) with
    | none => Except.error Err.indexError
    | some deps => .ok (updateTime { (queueAction c { noteStart s a.id a.time with svcCalls := (noteStart s a.id a.time).svcCalls + 1 }
        { a with time := c.serviceF (noteStart s a.id a.time).svcCalls a.time } 1).1 with departures := deps }, none)) = _
  generalize queueAction c { noteStart s a.id a.time with svcCalls := (noteStart s a.id a.time).svcCalls + 1 }
        { a with time := c.serviceF (noteStart s a.id a.time).svcCalls a.time } 1 = p
  cases heappush Slot.time p.1.departures (.agent p.2) <;> rfl

theorem arrTail_map {f : T → T'} (hf : TimeMap f) {c : QCfg T} {c' : QCfg T'} (hc : c.Conj f c') (s : QS T)
    (a : Agent T) : arrTail c' (s.map f) (a.map f) = mapE2 f (arrTail c s a) := by
  rw [arrTail_eq, arrTail_eq, apply_ite (mapE2 f)]
  refine if_congr Iff.rfl ?_ ?_
  · have h1 : noteStart (s.map f) (a.map f).id (a.map f).time = (noteStart s a.id a.time).map f := noteStart_map f s _ _
    have h2 : begin c' ((noteStart s a.id a.time).map f) (a.map f) (a.map f).time =
      mapE f (begin c (noteStart s a.id a.time) a a.time) := begin_map hf hc _ a _
    rw [h1, h2]
    cases begin c (noteStart s a.id a.time) a a.time with
    | error e => rfl
    | ok s => simp only [mapE, mapE2, updateTime_map hf, Option.map_none]
  · have h := updateTime_map hf { s with queue := s.queue ++ [a] }
    show _ = Except.ok (QS.map f (updateTime { s with queue := s.queue ++ [a] }), none)
    rw [← h]
    simp only [QS.map, List.map_append, List.map_cons, List.map_nil]

/-- Write an arrival, if data are collected. -/
def noteArr (s : QS T) (id : Nat × Nat) (t : T) (b : Nat) : QS T :=
  if s.collectData then { s with data := s.data.append id ⟨t, 0, 0, s.queue.length + b, s.numSystem⟩ } else s

theorem noteArr_map {f : T → T'} (hf : TimeMap f) (s : QS T) (id : Nat × Nat) (t : T) (b : Nat) :
    noteArr (s.map f) id (f t) b = (noteArr s id t b).map f := by
  unfold noteArr
  rw [apply_ite (QS.map f), data_append]
  simp only [Row.map, hf.zero]
  have : (s.map f).queue.length = s.queue.length := by simp [QS.map]
  rw [this]
  rfl

theorem arrMid_eq (c : QCfg T) (s : QS T) (a : Agent T) :
    arrMid c s a = (fun p : QS T × Agent T => arrTail c p.1 p.2)
      (queueAction c (noteArr { s with numSystem := s.numSystem + 1, numArrivals := s.numArrivals + 1 } a.id a.time
        (if s.numServers.le (s.numSystem + 1) then 0 else 1)) a 0) := rfl

theorem arrMid_map {f : T → T'} (hf : TimeMap f) {c : QCfg T} {c' : QCfg T'} (hc : c.Conj f c') (s : QS T)
    (a : Agent T) : arrMid c' (s.map f) (a.map f) = mapE2 f (arrMid c s a) := by
  rw [arrMid_eq, arrMid_eq]
  have h : noteArr { s.map f with numSystem := (s.map f).numSystem + 1, numArrivals := (s.map f).numArrivals + 1 }
      (a.map f).id (a.map f).time (if (s.map f).numServers.le ((s.map f).numSystem + 1) then 0 else 1) =
    (noteArr { s with numSystem := s.numSystem + 1, numArrivals := s.numArrivals + 1 } a.id a.time
        (if s.numServers.le (s.numSystem + 1) then 0 else 1)).map f :=
    noteArr_map hf { s with numSystem := s.numSystem + 1, numArrivals := s.numArrivals + 1 } _ _ _
  rw [h, queueAction_map f hc]
  exact arrTail_map hf hc _ _

theorem arriveEvent_map {f : T → T'} (hf : TimeMap f) {c : QCfg T} {c' : QCfg T'} (hc : c.Conj f c') (s : QS T) :
    arriveEvent c' (s.map f) = mapE2 f (arriveEvent c s) := by
  rw [arriveEvent_eq, arriveEvent_eq]
  have e0 : (s.map f).arrivals = s.arrivals.map (Slot.map f) := rfl
  rw [e0, heappop_map (slot_keys hf)]
  cases heappop Slot.time s.arrivals with
  | none => rfl
  | some p =>
    obtain ⟨_ | a, arr⟩ := p
    · rfl
    simp only [Option.map_some, Slot.map]
    have e1 : ({ s.map f with arrivals := arr.map (Slot.map f), currentT := (a.map f).time } : QS T') =
      ({ s with arrivals := arr, currentT := a.time } : QS T).map f := rfl
    rw [e1, extPart_map hf hc]
    cases extPart c { s with arrivals := arr, currentT := a.time } with
    | error e => rfl
    | ok s => exact arrMid_map hf hc s a

theorem baseEvent_map {f : T → T'} (hf : TimeMap f) {c : QCfg T} {c' : QCfg T'} (hc : c.Conj f c') (s : QS T) :
    baseEvent c' (s.map f) = mapE2 f (baseEvent c s) := by
  unfold baseEvent
  rw [departEvent_map hf hc, arriveEvent_map hf hc, apply_ite (mapE2 f), apply_ite (mapE2 f)]
  simp only [QS.map, headTime_map hf, hf.lt, hf.lt_top]
  rfl

theorem blockTail_map {f : T → T'} (hf : TimeMap f) (s : QS T) (a : Agent T) :
    blockTail (s.map f) (a.map f) = mapE2 f (blockTail s a) := by
  unfold blockTail
  simp only [mapE2, ← updateTime_map hf, apply_ite (QS.map f), data_append]
  simp only [Row.map, hf.zero]
  have : (s.map f).queue.length = s.queue.length := by simp [QS.map]
  rw [this]
  rfl

theorem blockEvent_map {f : T → T'} (hf : TimeMap f) {c : QCfg T} {c' : QCfg T'} (hc : c.Conj f c') (s : QS T) :
    blockEvent c' (s.map f) = mapE2 f (blockEvent c s) := by
  rw [blockEvent_eq, blockEvent_eq]
  have e0 : (s.map f).arrivals = s.arrivals.map (Slot.map f) := rfl
  rw [e0, heappop_map (slot_keys hf)]
  cases heappop Slot.time s.arrivals with
  | none => rfl
  | some p =>
    obtain ⟨_ | a, arr⟩ := p
    · rfl
    simp only [Option.map_some, Slot.map]
    have e1 : ({ s.map f with
      numBlocked := (s.map f).numBlocked + 1, numTotal := (s.map f).numTotal - 1, arrivals := arr.map (Slot.map f)
      lost := (s.map f).lost ++ [{ a.map f with blocked := (a.map f).blocked + 1 }]
      currentT := (a.map f).time } : QS T') =
      ({ s with
      numBlocked := s.numBlocked + 1, numTotal := s.numTotal - 1, arrivals := arr
      lost := s.lost ++ [{ a with blocked := a.blocked + 1 }], currentT := a.time } : QS T).map f := by
      simp only [QS.map, Agent.map, List.map_append, List.map_cons, List.map_nil]
    rw [e1, extPart_map hf hc]
    cases extPart c { s with
      numBlocked := s.numBlocked + 1, numTotal := s.numTotal - 1, arrivals := arr
      lost := s.lost ++ [{ a with blocked := a.blocked + 1 }], currentT := a.time } with
    | error e => rfl
    | ok s => exact blockTail_map hf s a

theorem lossEvent_map {f : T → T'} (hf : TimeMap f) {c : QCfg T} {c' : QCfg T'} (hc : c.Conj f c') (s : QS T) :
    lossEvent c' (s.map f) = mapE2 f (lossEvent c s) := by
  unfold lossEvent
  rw [baseEvent_map hf hc, blockEvent_map hf hc, hc.buffer, apply_ite (mapE2 f), apply_ite (mapE2 f), apply_ite (mapE2 f)]
  simp only [QS.map, headTime_map hf, hf.lt, hf.lt_top]
  rfl

/-- The end of `depositEvent`. -/
def depositTail (s : QS T) (a : Agent T) : Except Err (QS T × Option (Agent T)) :=
  .ok (updateTime (if s.collectData then
      { s with data := s.data.append a.id ⟨a.time, a.time, a.time, s.queue.length, s.numSystem⟩ } else s), none)

theorem depositTail_map {f : T → T'} (hf : TimeMap f) (s : QS T) (a : Agent T) :
    depositTail (s.map f) (a.map f) = mapE2 f (depositTail s a) := by
  unfold depositTail
  simp only [mapE2, ← updateTime_map hf, apply_ite (QS.map f), data_append]
  simp only [Row.map]
  have : (s.map f).queue.length = s.queue.length := by simp [QS.map]
  rw [this]
  rfl

theorem depositEvent_eq (c : QCfg T) (s : QS T) : depositEvent c s = match heappop Slot.time s.arrivals with
    | none => .error .indexError
    | some (.infty, _) => .error .attributeError
    | some (.agent a, arr) => depositTail (resourceSetServers c
        { s with arrivals := arr, currentT := a.time, numTotal := s.numTotal - 1 } (s.numServers.addInt 1)) a := rfl

theorem depositEvent_map {f : T → T'} (hf : TimeMap f) {c : QCfg T} {c' : QCfg T'} (hc : c.Conj f c') (s : QS T) :
    depositEvent c' (s.map f) = mapE2 f (depositEvent c s) := by
  rw [depositEvent_eq, depositEvent_eq]
  have e0 : (s.map f).arrivals = s.arrivals.map (Slot.map f) := rfl
  rw [e0, heappop_map (slot_keys hf)]
  cases heappop Slot.time s.arrivals with
  | none => rfl
  | some p =>
    obtain ⟨_ | a, arr⟩ := p
    · rfl
    simp only [Option.map_some, Slot.map]
    rw [← depositTail_map hf]
    simp only [resourceSetServers, hc.maxServers]
    rfl

theorem resourceBlock_eq (c : QCfg T) (s : QS T) : resourceBlock c s = match heappop Slot.time s.arrivals with
    | none => .error .indexError
    | some (.infty, _) => .error .attributeError
    | some (.agent a, arr) => blockTail { s with
        numBlocked := s.numBlocked + 1
        numArrivals := s.numArrivals + 1
        numTotal := s.numTotal - 1
        arrivals := arr
        lost := s.lost ++ [a]
        currentT := a.time } a := rfl

theorem resourceBlock_map {f : T → T'} (hf : TimeMap f) {c : QCfg T} {c' : QCfg T'} (s : QS T) :
    resourceBlock c' (s.map f) = mapE2 f (resourceBlock c s) := by
  rw [resourceBlock_eq, resourceBlock_eq]
  have e0 : (s.map f).arrivals = s.arrivals.map (Slot.map f) := rfl
  rw [e0, heappop_map (slot_keys hf)]
  cases heappop Slot.time s.arrivals with
  | none => rfl
  | some p =>
    obtain ⟨_ | a, arr⟩ := p
    · rfl
    simp only [Option.map_some, Slot.map]
    rw [← blockTail_map hf]
    congr 1
    simp only [QS.map, List.map_append, List.map_cons, List.map_nil, Agent.map]

theorem resourceEvent_map {f : T → T'} (hf : TimeMap f) {c : QCfg T} {c' : QCfg T'} (hc : c.Conj f c') (s : QS T) :
    resourceEvent c' (s.map f) = mapE2 f (resourceEvent c s) := by
  unfold resourceEvent
  have e0 : (s.map f).arrivals = s.arrivals.map (Slot.map f) := rfl
  rw [lossEvent_map hf hc, depositEvent_map hf hc, resourceBlock_map hf (c := c), e0, List.head?_map]
  cases s.arrivals.head? with
  | none => rfl
  | some x =>
    obtain _ | ⟨i, t, b, k⟩ := x
    · rfl
    cases k <;> try rfl
    simp only [Option.map_some, Slot.map, Agent.map]
    rw [apply_ite (mapE2 f), apply_ite (mapE2 f), apply_ite (mapE2 f), apply_ite (mapE2 f)]
    simp only [QS.map, headTime_map hf, hf.lt, hf.lt_top]
    rfl

theorem nextEvent_map {f : T → T'} (hf : TimeMap f) {c : QCfg T} {c' : QCfg T'} (hc : c.Conj f c') (s : QS T) :
    nextEvent c' (s.map f) = mapE2 f (nextEvent c s) := by
  unfold nextEvent
  rw [hc.kind]
  cases c.kind
  · exact baseEvent_map hf hc s
  all_goals first | exact lossEvent_map hf hc s | exact resourceEvent_map hf hc s | rfl

theorem nextEventDescription_map {f : T → T'} (hf : TimeMap f) {c : QCfg T} {c' : QCfg T'} (hc : c.Conj f c')
    (s : QS T) : nextEventDescription c' (s.map f) = nextEventDescription c s := by
  unfold nextEventDescription
  simp only [hc.kind, QS.map, headTime_map hf, hf.lt, hf.lt_top]

theorem atCapacity_map {f : T → T'} {c : QCfg T} {c' : QCfg T'} (hc : c.Conj f c') (s : QS T) :
    atCapacity c' (s.map f) = atCapacity c s := by
  unfold atCapacity
  rw [hc.kind, hc.buffer]
  rfl

theorem numberQueued_map {f : T → T'} {c : QCfg T} {c' : QCfg T'} (hc : c.Conj f c') (s : QS T) :
    numberQueued c' (s.map f) = numberQueued c s := by
  unfold numberQueued
  rw [hc.kind]
  simp only [QS.map, List.length_map]

theorem setActive_map {f : T → T'} (hf : TimeMap f) {c : QCfg T} {c' : QCfg T'} (hc : c.Conj f c') (s : QS T) :
    setActive c' (s.map f) = mapE f (setActive c s) := by
  unfold setActive
  rw [apply_ite (mapE f)]
  refine if_congr Iff.rfl rfl ?_
  exact addArrival_map hf hc { s with active := true }

theorem bumpHead_map (f : T → T') (s : QS T) (k : Nat) : bumpHead (s.map f) k = (bumpHead s k).map f := by
  unfold bumpHead
  have e0 : (s.map f).departures = s.departures.map (Slot.map f) := rfl
  rw [e0]
  cases h : s.departures with
  | nil => rfl
  | cons x l => cases x <;> rfl

theorem delayService_map {f : T → T'} (hf : TimeMap f) {c : QCfg T} {c' : QCfg T'} (hc : c.Conj f c') (s : QS T)
    (t : Option T) : delayService c' (s.map f) (t.map f) = mapE f (delayService c s t) := by
  unfold delayService
  have e0 : (s.map f).departures = s.departures.map (Slot.map f) := rfl
  rw [e0, hc.kind, heappop_map (slot_keys hf), List.length_map, apply_ite (mapE f), apply_ite (mapE f)]
  refine if_congr Iff.rfl rfl (if_congr Iff.rfl ?_ rfl)
  cases heappop Slot.time s.departures with
  | none => rfl
  | some p =>
    obtain ⟨_ | a, deps⟩ := p
    · rfl
    have key : ∀ (t : T) (k : Nat), (match heappush Slot.time (deps.map (Slot.map f))
          (.agent { a.map f with time := f t }) with
        | none => Except.error Err.indexError
        | some d => .ok (updateTime { s.map f with departures := d, svcCalls := k })) =
        mapE f (match heappush Slot.time deps (.agent { a with time := t }) with
        | none => Except.error Err.indexError
        | some d => .ok (updateTime { s with departures := d, svcCalls := k })) := by
      intro t k
      have h := heappush_map (slot_keys hf) deps (.agent { a with time := t })
      simp only [Slot.map, Agent.map] at h ⊢
      rw [h]
      cases heappush Slot.time deps (.agent { a with time := t }) with
      | none => rfl
      | some d => exact congrArg Except.ok (updateTime_map hf { s with departures := d, svcCalls := k })
    cases t with
    | none =>
      have e : c'.serviceF (s.map f).svcCalls (a.map f).time = f (c.serviceF s.svcCalls a.time) := hc.serviceF _ _
      simp only [Option.map_some, Option.map_none, Slot.map, e]
      exact key _ (s.svcCalls + 1)
    | some t => exact key _ s.svcCalls

theorem serviceMany_map {f : T → T'} (hf : TimeMap f) {c : QCfg T} {c' : QCfg T'} (hc : c.Conj f c') (k : Nat)
    (s : QS T) : serviceMany c' k (s.map f) = mapE f (serviceMany c k s) := by
  induction k generalizing s with
  | zero => rfl
  | succ k ih =>
    simp only [serviceMany, serviceFromQueue_map hf hc]
    cases serviceFromQueue c s with
    | error e => rfl
    | ok s => exact ih s

theorem setNumServers_map {f : T → T'} (hf : TimeMap f) {c : QCfg T} {c' : QCfg T'} (hc : c.Conj f c') (s : QS T)
    (n : PyNum) : setNumServers c' (s.map f) n = ((setNumServers c s n).1.map f, (setNumServers c s n).2) := by
  have key : ∀ new : Cap, (match agentsToQueue new (s.map f).numServers (s.map f).queue.length with
      | none => (s.map f, some Err.typeError)
      | some k =>
        match serviceMany c' k (s.map f) with
        | .error e => (s.map f, some e)
        | .ok s' => ({ (if 0 < k then updateTime s' else s') with numServers := new }, none)) =
      ((match agentsToQueue new s.numServers s.queue.length with
      | none => (s, some Err.typeError)
      | some k =>
        match serviceMany c k s with
        | .error e => (s, some e)
        | .ok s' => ({ (if 0 < k then updateTime s' else s') with numServers := new }, none)).1.map f,
      (match agentsToQueue new s.numServers s.queue.length with
      | none => (s, some Err.typeError)
      | some k =>
        match serviceMany c k s with
        | .error e => (s, some e)
        | .ok s' => ({ (if 0 < k then updateTime s' else s') with numServers := new }, none)).2) := by
    intro new
    rw [show (s.map f).numServers = s.numServers from rfl, show (s.map f).queue.length = s.queue.length from List.length_map _]
    cases agentsToQueue new s.numServers s.queue.length with
    | none => rfl
    | some k =>
      simp only [serviceMany_map hf hc]
      cases serviceMany c k s with
      | error e => rfl
      | ok s' =>
        simp only [mapE]
        by_cases h : 0 < k <;> simp only [h, if_true, if_false, updateTime_map hf] <;> rfl
  unfold setNumServers
  rw [hc.kind]
  simp only [resourceSetServers, hc.maxServers]
  cases c.kind <;> cases n <;> try rfl
  all_goals first
    | exact key .inf
    | (rename_i m; by_cases h : m ≤ 0 <;> simp only [h, if_true, if_false]; exact key (.fin m))

theorem clear_map {f : T → T'} (hf : TimeMap f) {c : QCfg T} {c' : QCfg T'} (hc : c.Conj f c') (s : QS T) :
    clear c' (s.map f) = (clear c s).map f := by
  unfold clear
  rw [hc.kind]
  cases c.kind <;> simp only [QS.map, hf.zero, hf.top] <;> rfl

theorem setInactive_map (f : T → T') (s : QS T) : setInactive (s.map f) = (setInactive s).map f := rfl

theorem simulateN_map {f : T → T'} (hf : TimeMap f) {c : QCfg T} {c' : QCfg T'} (hc : c.Conj f c') (m : Nat)
    (s : QS T) : simulateN c' m (s.map f) = mapE f (simulateN c m s) := by
  induction m generalizing s with
  | zero => rfl
  | succ m ih =>
    simp only [simulateN, nextEvent_map hf hc]
    rcases nextEvent c s with e | ⟨s, r⟩
    · rfl
    · exact ih s

end Queues

/-! ## The scheduler -/

section Scheduler

variable {T T' : Type*} [LinearOrder T] [OrderTop T] [Zero T] [LinearOrder T'] [OrderTop T'] [Zero T']

/-- Both fail, or both succeed with related results. -/
inductive ORel {α β : Type*} (r : α → β → Prop) : Option α → Option β → Prop
  | none : ORel r none none
  | some {a b} : r a b → ORel r (some a) (some b)

/-- Both raise the same exception, or both succeed with related results. -/
inductive ERel {ε α β : Type*} (r : α → β → Prop) : Except ε α → Except ε β → Prop
  | error (e) : ERel r (.error e) (.error e)
  | ok {a b} : r a b → ERel r (.ok a) (.ok b)

/-- The entry at the mapped time. -/
def entry (f : T → T') (p : T × Nat) : T' × Nat := (f p.1, p.2)

/-- Two schedulers with the same entries at mapped times; nothing is said about the cells beyond the size. -/
structure PQ.Same (f : T → T') (h : PQ T) (h' : PQ T') : Prop where
  size : h'.size = h.size
  actualSize : h'.actualSize = h.actualSize
  length : h'.arr.length = h.arr.length
  le : h.size ≤ h.arr.length
  entries : h'.arr.take h.size = (h.arr.take h.size).map (entry f)
  qtimes : h'.qtimes = h.qtimes.map f

theorem entry_keys {f : T → T'} (hf : TimeMap f) : KeysAgree (entry f) Prod.fst Prod.fst :=
  fun a b => hf.lt a.1 b.1

theorem PQ.Same.empty (f : T → T') : PQ.Same f (PQ.empty : PQ T) PQ.empty :=
  ⟨rfl, rfl, rfl, le_rfl, rfl, rfl⟩

theorem PQ.Same.get {f : T → T'} {h : PQ T} {h' : PQ T'} (hs : PQ.Same f h h') {i : Nat} (hi : i < h.size) :
    h'.arr[i]? = h.arr[i]?.map (entry f) := by
  have := congrArg (fun l : List (T' × Nat) => l[i]?) hs.entries
  simpa [List.getElem?_take, hi] using this

theorem PQ.push_same {f : T → T'} (hf : TimeMap f) {h : PQ T} {h' : PQ T'} (hs : PQ.Same f h h')
    (g : Nat → T × Nat) (g' : Nat → T' × Nat) (t : T) (k : Nat) :
    ORel (PQ.Same f) (h.push g t k) (h'.push g' (f t) k) := by
  unfold PQ.push
  rw [hs.qtimes, setChk_map f h.qtimes k t, hs.size, hs.actualSize]
  cases setChk h.qtimes k t with
  | none => exact .none
  | some q =>
    simp only [Option.map_some]
    set a : List (T × Nat) := if h.size < h.actualSize then h.arr else PQ.resize h.arr (2 * h.size) g with ha
    set a' : List (T' × Nat) := if h.size < h.actualSize then h'.arr else PQ.resize h'.arr (2 * h.size) g' with ha'
    have hl : a'.length = a.length := by
      rw [ha, ha']; split
      · exact hs.length
      · simp [PQ.resize]
    have hle := hs.le
    have hle' : h.size ≤ h'.arr.length := by rw [hs.length]; exact hle
    have hr' : ∀ (arr : List (T' × Nat)) (g : Nat → T' × Nat) (i : Nat), i < h.size → h.size ≤ arr.length →
        (PQ.resize arr (2 * h.size) g)[i]? = arr[i]? := by
      intro arr g i hi hm
      rw [PQ.resize, List.getElem?_map, List.getElem?_range (by omega)]
      simp [List.getElem?_eq_getElem (show i < arr.length by omega)]
    have hr : ∀ (arr : List (T × Nat)) (g : Nat → T × Nat) (i : Nat), i < h.size → h.size ≤ arr.length →
        (PQ.resize arr (2 * h.size) g)[i]? = arr[i]? := by
      intro arr g i hi hm
      rw [PQ.resize, List.getElem?_map, List.getElem?_range (by omega)]
      simp [List.getElem?_eq_getElem (show i < arr.length by omega)]
    have hpre : a'.take h.size = (a.take h.size).map (entry f) := by
      have : ∀ i, i < h.size → (if h.size < h.actualSize then h'.arr else PQ.resize h'.arr (2 * h.size) g')[i]? = h'.arr[i]? := by
        intro i hi
        split
        · rfl
        · exact hr' _ _ _ hi hle'
      apply List.ext_getElem?
      intro i
      rw [List.getElem?_take, List.getElem?_map, List.getElem?_take]
      by_cases hi : i < h.size
      · rw [if_pos hi, if_pos hi, ha', this i hi, hs.get hi, ha]
        split
        · rfl
        · rw [hr _ _ _ hi hle]
      · rw [if_neg hi, if_neg hi]; rfl
    by_cases hlt : h.size < a.length
    · have e1 : setChk a h.size (t, k) = some (a.set h.size (t, k)) := by simp [setChk, hlt]
      have e2 : setChk a' h.size (f t, k) = some (a'.set h.size (f t, k)) := by simp [setChk, hl, hlt]
      rw [e1, e2]
      simp only
      have d1 : a.set h.size (t, k) = (a.take h.size ++ [(t, k)]) ++ a.drop (h.size + 1) := by
        rw [List.set_eq_take_append_cons_drop, if_pos hlt]; simp
      have d2 : a'.set h.size (f t, k) = (a.take h.size ++ [(t, k)]).map (entry f) ++ a'.drop (h.size + 1) := by
        rw [List.set_eq_take_append_cons_drop, if_pos (by omega), hpre]; simp [entry]
      have hlen : (a.take h.size ++ [(t, k)]).length = h.size + 1 := by simp; omega
      have g1 := siftdown_append Prod.fst (a.take h.size ++ [(t, k)]) (a.drop (h.size + 1)) 0 (pos := h.size)
        (by rw [hlen]; omega)
      have g2 := siftdown_append Prod.fst ((a.take h.size ++ [(t, k)]).map (entry f)) (a'.drop (h.size + 1)) 0
        (pos := h.size) (by rw [List.length_map, hlen]; omega)
      rw [d1, d2, g1, g2, siftdown_map (entry_keys hf)]
      cases hsd : siftdown Prod.fst (a.take h.size ++ [(t, k)]) 0 h.size with
      | none => exact .none
      | some l =>
        have hll : l.length = h.size + 1 := by rw [siftdown_length hsd, hlen]
        refine .some ⟨rfl, rfl, ?_, ?_, ?_, rfl⟩
        · simp [hl]
        · simp [hll]
        · simp [hll]
    · have e1 : setChk a h.size (t, k) = none := by simp [setChk, hlt]
      have e2 : setChk a' h.size (f t, k) = none := by simp [setChk, hl, hlt]
      rw [e1, e2]
      exact .none

theorem PQ.heappop_same {f : T → T'} (hf : TimeMap f) {h : PQ T} {h' : PQ T'} (hs : PQ.Same f h h') :
    ORel (fun p p' => PQ.Same f p.1 p'.1 ∧ p'.2 = entry f p.2) h.heappop h'.heappop := by
  unfold PQ.heappop
  rw [hs.size]
  by_cases h0 : h.size = 0
  · rw [if_pos h0, if_pos h0]; exact .none
  have hle := hs.le
  have hlen := hs.length
  rw [if_neg h0, if_neg h0]
  simp only
  rw [hs.get (show h.size - 1 < h.size by omega), hs.get (show 0 < h.size by omega)]
  obtain ⟨last, hlast⟩ : ∃ x, h.arr[h.size - 1]? = some x := ⟨_, List.getElem?_eq_getElem (by omega)⟩
  obtain ⟨top, htop⟩ : ∃ x, h.arr[0]? = some x := ⟨_, List.getElem?_eq_getElem (by omega)⟩
  have entries' : h'.arr.take (h.size - 1) = (h.arr.take (h.size - 1)).map (entry f) := by
    have := congrArg (List.take (h.size - 1)) hs.entries
    rw [List.take_take, ← List.map_take, List.take_take, min_eq_left (by omega)] at this
    exact this
  rw [hlast, htop]
  simp only [Option.map_some]
  by_cases h1 : 0 < h.size - 1
  · rw [if_pos h1, if_pos h1]
    have e1 : setChk h.arr 0 last = some (h.arr.set 0 last) := by rw [setChk, if_pos (by omega)]
    have e2 : setChk h'.arr 0 (entry f last) = some (h'.arr.set 0 (entry f last)) := by rw [setChk, if_pos (by omega)]
    rw [e1, e2]
    simp only
    have d1 : h.arr.set 0 last = (h.arr.take (h.size - 1)).set 0 last ++ h.arr.drop (h.size - 1) := by
      conv_lhs => rw [← List.take_append_drop (h.size - 1) h.arr]
      rw [List.set_append_left _ _ (by simp; omega)]
    have d2 : h'.arr.set 0 (entry f last) =
        ((h.arr.take (h.size - 1)).set 0 last).map (entry f) ++ h'.arr.drop (h.size - 1) := by
      conv_lhs => rw [← List.take_append_drop (h.size - 1) h'.arr]
      rw [List.set_append_left _ _ (by simp; omega), entries', List.map_set]
    have hl : ((h.arr.take (h.size - 1)).set 0 last).length = h.size - 1 := by simp; omega
    rw [d1, d2, siftup_append _ _ _ h1 (by rw [hl]), siftup_append _ _ _ h1 (by rw [List.length_map, hl]),
      siftup_map (entry_keys hf)]
    cases hsu : siftup Prod.fst ((h.arr.take (h.size - 1)).set 0 last) 0 (h.size - 1) with
    | none => exact .none
    | some l =>
      have hll : l.length = h.size - 1 := by rw [siftup_length hsu, hl]
      refine .some ⟨⟨rfl, hs.actualSize, ?_, ?_, ?_, hs.qtimes⟩, rfl⟩
      · simp [hlen]
      · simp [hll]
      · simp [hll]
  · rw [if_neg h1, if_neg h1]
    exact .some ⟨⟨rfl, hs.actualSize, hs.length, by simp; omega, entries', hs.qtimes⟩, rfl⟩

theorem PQ.popLoop_same {f : T → T'} (hf : TimeMap f) : ∀ (fuel : Nat) {h : PQ T} {h' : PQ T'} (_ : PQ.Same f h h')
    (r : T × Nat), ORel (fun p p' => PQ.Same f p.1 p'.1 ∧ p'.2 = p.2.map (entry f))
      (PQ.popLoop fuel h r) (PQ.popLoop fuel h' (entry f r)) := by
  intro fuel
  induction fuel with
  | zero => intro h h' _ r; exact .none
  | succ fuel ih =>
    intro h h' hs r
    unfold PQ.popLoop
    rw [hs.qtimes, hs.size]
    simp only [entry, List.getElem?_map]
    cases h.qtimes[r.2]? with
    | none => exact .none
    | some q =>
      simp only [Option.map_some, ne_eq, hf.inj]
      by_cases hq : r.1 = q
      · rw [if_neg (by simpa using hq), if_neg (by simpa using hq)]
        exact .some ⟨hs, rfl⟩
      · rw [if_pos hq, if_pos hq]
        by_cases h0 : h.size = 0
        · rw [if_pos h0, if_pos h0]
          exact .some ⟨hs, rfl⟩
        · rw [if_neg h0, if_neg h0]
          have hp := PQ.heappop_same hf hs
          generalize h.heappop = x at hp
          generalize h'.heappop = x' at hp
          cases hp with
          | none => exact .none
          | some hp =>
            rename_i a b
            obtain ⟨b1, b2⟩ := b
            obtain ⟨hp, rfl⟩ := hp
            exact ih hp a.2

theorem PQ.pop_same {f : T → T'} (hf : TimeMap f) {h : PQ T} {h' : PQ T'} (hs : PQ.Same f h h') :
    ORel (fun p p' => PQ.Same f p.1 p'.1 ∧ p'.2 = p.2.map (entry f)) h.pop h'.pop := by
  unfold PQ.pop
  have hp := PQ.heappop_same hf hs
  generalize h.heappop = x at hp
  generalize h'.heappop = x' at hp
  cases hp with
  | none => exact .none
  | some hp =>
    rename_i a b
    obtain ⟨b1, b2⟩ := b
    obtain ⟨a1, a2⟩ := a
    obtain ⟨hp, rfl⟩ := hp
    simp only
    have := hp.size
    simp only at this
    rw [this]
    exact PQ.popLoop_same hf _ hp a2

theorem PQ.init_same {f : T → T'} (hf : TimeMap f) (keys : List (T × Nat)) (n : Nat) :
    ORel (PQ.Same f) (PQ.init keys n) (PQ.init (keys.map (entry f)) n) := by
  have hi : ∀ (keys : List (T × Nat)) (q : List T),
      PQ.initTimes (keys.map (entry f)) (q.map f) = (PQ.initTimes keys q).map (List.map f) := by
    intro keys
    induction keys with
    | nil => intro q; rfl
    | cons p ks ih =>
      intro q
      obtain ⟨t, k⟩ := p
      simp only [List.map_cons, PQ.initTimes, entry, setChk_map]
      cases setChk q k t with
      | none => rfl
      | some q' => exact ih q'
  unfold PQ.init
  rw [List.length_map, heapify_map (entry_keys hf)]
  cases h1 : heapify Prod.fst keys keys.length with
  | none => exact .none
  | some arr =>
    simp only [Option.map_some]
    have := hi keys (List.replicate n ⊤)
    rw [List.map_replicate, hf.top] at this
    rw [this]
    cases PQ.initTimes keys (List.replicate n ⊤) with
    | none => exact .none
    | some q =>
      obtain ⟨l', e, hp, -⟩ := heapify_spec Prod.fst keys.length keys le_rfl
      rw [h1] at e
      simp only [Option.some.injEq] at e
      have hl : arr.length = keys.length := by rw [e]; exact hp.length_eq
      exact .some ⟨rfl, rfl, by simp, by simp [hl], by simp [← hl], rfl⟩

end Scheduler

/-! ## Networks -/

section Networks

variable {T T' R : Type*} [LinearOrder T] [OrderTop T] [Zero T] [LinearOrder T'] [OrderTop T'] [Zero T']
  [LinearOrder R] [Add R] {J : Prop}

/-- Two networks built alike, the functions of the second doing at mapped times what those of the first do.  Nothing is
said about the contents of newly allocated memory (`garbage`).  The small random delay of blocked agents (`jit`, used
with blocking after service only) is mapped if `J`. -/
structure NetCfg.Conj (f : T → T') (J : Prop) (N : NetCfg T R) (N' : NetCfg T' R) : Prop where
  nE : N'.nE = N.nE
  qc : ∀ k, (N.qc k).Conj f (N'.qc k)
  outEdges : N'.outEdges = N.outEdges
  maxAgents : N'.maxAgents = N.maxAgents
  unif : N'.unif = N.unif
  jit : J → ∀ i t, N'.jit i (f t) = f (N.jit i t)

/-- The second network is in the same state as the first, at mapped times; without `J` both have repetitive service
blocking. -/
structure Net.Same (f : T → T') (J : Prop) (n : Net T R) (n' : Net T' R) : Prop where
  qs : ∀ k, n'.qs k = (n.qs k).map f
  numAgents : n'.numAgents = n.numAgents
  heap : PQ.Same f n.heap n'.heap
  t : n'.t = f n.t
  numEvents : n'.numEvents = n.numEvents
  initialized : n'.initialized = n.initialized
  bas : n'.bas = n.bas
  probs : n'.probs = n.probs
  unifCalls : n'.unifCalls = n.unifCalls
  jitCalls : n'.jitCalls = n.jitCalls
  free : n.bas = true → J

namespace Net

theorem Same.init {f : T → T'} (hf : TimeMap f) {N : NetCfg T R} {N' : NetCfg T' R} (hN : N.Conj f J N')
    (b : Nat → Bool) (bas : Bool) (p : Nat → List R) (hb : bas = true → J) :
    Same f J (Net.init N b bas p) (Net.init N' b bas p) :=
  ⟨fun k => QS.init_map hf (hN.qc k) (b k), rfl, PQ.Same.empty f, hf.zero.symm, rfl, rfl, rfl, rfl, rfl, rfl, hb⟩

theorem Same.setQ {f : T → T'} {n : Net T R} {n' : Net T' R} (h : Same f J n n') (k : Nat) {s : QS T} {s' : QS T'}
    (hs : s' = s.map f) : Same f J (n.setQ k s) (n'.setQ k s') := by
  refine ⟨fun j => ?_, h.numAgents, h.heap, h.t, h.numEvents, h.initialized, h.bas, h.probs, h.unifCalls, h.jitCalls, h.free⟩
  simp only [Net.setQ]
  by_cases e : j = k
  · subst e; simp only [Function.update_self, hs]
  · simp only [Function.update_of_ne e, h.qs]

theorem Same.setNum {f : T → T'} {n : Net T R} {n' : Net T' R} (h : Same f J n n') (k : Nat) (x : Int) :
    Same f J (n.setNum k x) (n'.setNum k x) :=
  ⟨h.qs, by simp only [Net.setNum, h.numAgents], h.heap, h.t, h.numEvents, h.initialized, h.bas, h.probs, h.unifCalls,
    h.jitCalls, h.free⟩

theorem Same.total {f : T → T'} {N : NetCfg T R} {N' : NetCfg T' R} (hN : N.Conj f J N') {n : Net T R} {n' : Net T' R}
    (h : Same f J n n') : n'.total N' = n.total N := by
  simp only [Net.total, hN.nE, h.numAgents]

theorem Same.maxed {f : T → T'} {N : NetCfg T R} {N' : NetCfg T' R} (hN : N.Conj f J N') {n : Net T R} {n' : Net T' R}
    (h : Same f J n n') : n'.maxed N' = n.maxed N := by
  simp only [Net.maxed, hN.maxAgents, h.total hN]

theorem Same.time {f : T → T'} {n : Net T R} {n' : Net T' R} (h : Same f J n n') (k : Nat) :
    (n'.qs k).time = f (n.qs k).time := by
  rw [h.qs]; rfl

theorem Same.pushKey {f : T → T'} (hf : TimeMap f) {N : NetCfg T R} {N' : NetCfg T' R} (hN : N.Conj f J N')
    {n : Net T R} {n' : Net T' R} (h : Same f J n n') (i k : Nat) :
    ERel (Same f J) (n.pushKey N i k) (n'.pushKey N' i k) := by
  unfold Net.pushKey
  rw [h.time, (hN.qc k).edge]
  have hp := PQ.push_same hf h.heap (N.garbage i) (N'.garbage i) (n.qs k).time (N.qc k).edge.idx
  generalize n.heap.push (N.garbage i) (n.qs k).time (N.qc k).edge.idx = x at hp
  generalize n'.heap.push (N'.garbage i) (f (n.qs k).time) (N.qc k).edge.idx = x' at hp
  cases hp with
  | none => exact .error _
  | some hp => exact .ok ⟨h.qs, h.numAgents, hp, h.t, h.numEvents, h.initialized, h.bas, h.probs, h.unifCalls, h.jitCalls, h.free⟩

theorem Same.destination {f : T → T'} {N : NetCfg T R} {N' : NetCfg T' R} (hN : N.Conj f J N')
    {n : Net T R} {n' : Net T' R} (h : Same f J n n') (k : Nat) (a : Agent T) :
    n'.destination N' k (a.map f) = n.destination N k a := by
  have e : (fun d => numberQueued (N'.qc d) (n'.qs d)) = fun d => numberQueued (N.qc d) (n.qs d) := by
    funext d
    rw [h.qs, numberQueued_map (hN.qc d)]
  unfold Net.destination
  simp only [hN.outEdges, (hN.qc k).edge, e, h.probs, hN.unif, h.unifCalls, Agent.map]

theorem Same.blocked {f : T → T'} (hf : TimeMap f) {N : NetCfg T R} {N' : NetCfg T' R} (hN : N.Conj f J N')
    {n : Net T R} {n' : Net T' R} (h : Same f J n n') (k e : Nat) :
    ERel (Same f J) (n.blocked N k e) (n'.blocked N' k e) := by
  unfold Net.blocked
  simp only
  have h1 := h.setQ e (s := { n.qs e with numBlocked := (n.qs e).numBlocked + 1 })
    (s' := { n'.qs e with numBlocked := (n'.qs e).numBlocked + 1 }) (by rw [h.qs]; rfl)
  generalize n.setQ e { n.qs e with numBlocked := (n.qs e).numBlocked + 1 } = m at h1 ⊢
  generalize n'.setQ e { n'.qs e with numBlocked := (n'.qs e).numBlocked + 1 } = m' at h1 ⊢
  have h2 := h1.setQ k (s := bumpHead (m.qs k) 1) (s' := bumpHead (m'.qs k) 1) (by rw [h1.qs, bumpHead_map])
  generalize m.setQ k (bumpHead (m.qs k) 1) = m at h2 ⊢
  generalize m'.setQ k (bumpHead (m'.qs k) 1) = m' at h2 ⊢
  have e1 : (if m'.bas then some (N'.jit m'.jitCalls (headTime (m'.qs e).departures)) else none) =
      (if m.bas then some (N.jit m.jitCalls (headTime (m.qs e).departures)) else none).map f := by
    rw [h2.bas, h2.jitCalls, h2.qs]
    have : headTime ((m.qs e).map f).departures = f (headTime (m.qs e).departures) := headTime_map hf _
    rw [this]
    cases hb : m.bas
    · rfl
    · rw [hN.jit (h2.free hb)]; rfl
  rw [e1, h2.qs k, delayService_map hf (hN.qc k)]
  cases delayService (N.qc k) (m.qs k)
      (if m.bas then some (N.jit m.jitCalls (headTime (m.qs e).departures)) else none) with
  | error e => exact .error _
  | ok s =>
    have h3 := h2.setQ k (s := s) rfl
    refine .ok ⟨h3.qs, h3.numAgents, h3.heap, h3.t, h3.numEvents, h3.initialized, h3.bas, h3.probs, h3.unifCalls, ?_, h3.free⟩
    simp only [h2.bas, h2.jitCalls]

theorem Same.move {f : T → T'} (hf : TimeMap f) {N : NetCfg T R} {N' : NetCfg T' R} (hN : N.Conj f J N')
    {n : Net T R} {n' : Net T' R} (h : Same f J n n') (k e : Nat) (t : T) :
    ERel (Same f J) (n.move N k e t) (n'.move N' k e (f t)) := by
  unfold Net.move
  rw [h.qs k, nextEvent_map hf (hN.qc k)]
  rcases nextEvent (N.qc k) (n.qs k) with err | ⟨s, _ | a⟩
  · exact .error _
  · exact .error _
  simp only [mapE2, Option.map_some]
  have h1 := h.setQ k (s := s) rfl
  generalize n.setQ k s = m at h1 ⊢
  generalize n'.setQ k (s.map f) = m' at h1 ⊢
  have e1 : addArrivalAgent (N'.qc e) (m'.qs e) { a.map f with time := f t } =
      mapE f (addArrivalAgent (N.qc e) (m.qs e) { a with time := t }) := by
    rw [h1.qs]
    exact addArrivalAgent_map hf (hN.qc e) _ { a with time := t }
  rw [e1]
  cases addArrivalAgent (N.qc e) (m.qs e) { a with time := t } with
  | error err => exact .error _
  | ok s2 =>
    simp only [mapE]
    have h2 := h1.setQ e (s := s2) rfl
    generalize m.setQ e s2 = m at h2 ⊢
    generalize m'.setQ e (s2.map f) = m' at h2 ⊢
    have e2 : (m'.qs k).numTotal = (m.qs k).numTotal := by rw [h2.qs]; rfl
    rw [e2, (hN.qc k).edge]
    have h3 := h2.setNum (N.qc k).edge.idx (m.qs k).numTotal
    generalize m.setNum (N.qc k).edge.idx (m.qs k).numTotal = m at h3 ⊢
    generalize m'.setNum (N.qc k).edge.idx _ = m' at h3 ⊢
    have e3 : (m'.qs e).numTotal = (m.qs e).numTotal := by rw [h3.qs]; rfl
    rw [e3]
    have h4 := h3.setNum e (m.qs e).numTotal
    generalize m.setNum e (m.qs e).numTotal = m at h4 ⊢
    generalize m'.setNum e _ = m' at h4 ⊢
    have e4 : (if (m'.qs e).active && m'.maxed N' then setInactive (m'.qs e) else m'.qs e) =
        (if (m.qs e).active && m.maxed N then setInactive (m.qs e) else m.qs e).map f := by
      rw [apply_ite (QS.map f), h4.qs, h4.maxed hN]; rfl
    rw [e4, nextEvent_map hf (hN.qc e)]
    rcases nextEvent (N.qc e) (if (m.qs e).active && m.maxed N then setInactive (m.qs e) else m.qs e) with err | ⟨s, r⟩
    · exact .error _
    · simp only [mapE2]
      have h5 := h4.setQ e (s := s) rfl
      have e5 : ((m'.setQ e (s.map f)).qs e).numTotal = ((m.setQ e s).qs e).numTotal := by rw [h5.qs]; rfl
      rw [e5]
      exact .ok (h5.setNum e _)

theorem Same.pushBoth {f : T → T'} (hf : TimeMap f) {N : NetCfg T R} {N' : NetCfg T' R} (hN : N.Conj f J N')
    {n : Net T R} {n' : Net T' R} (h : Same f J n n') (k e : Nat) (t : T) :
    ERel (Same f J) (n.pushBoth N k e t) (n'.pushBoth N' k e (f t)) := by
  unfold Net.pushBoth
  simp only [h.time, h.numEvents, ne_eq, hf.inj, hf.lt_top]
  split
  · have hp := h.pushKey hf hN (2 * n.numEvents) e
    generalize n.pushKey N (2 * n.numEvents) e = x at hp ⊢
    generalize n'.pushKey N' (2 * n.numEvents) e = x' at hp ⊢
    cases hp with
    | error => exact .error _
    | ok hp =>
      rename_i m m'
      simp only [hp.time, hf.lt_top, (hN.qc k).edge, (hN.qc e).edge, Prod.mk.injEq, hf.inj]
      split
      · exact hp.pushKey hf hN _ k
      · exact .ok hp
  · split
    · exact h.pushKey hf hN _ k
    · exact .ok h

theorem Same.departure {f : T → T'} (hf : TimeMap f) {N : NetCfg T R} {N' : NetCfg T' R} (hN : N.Conj f J N')
    {n : Net T R} {n' : Net T' R} (h : Same f J n n') (k : Nat) (t : T) :
    ERel (Same f J) (n.departure N k t) (n'.departure N' k (f t)) := by
  unfold Net.departure
  have e1 : (n'.qs k).departures.head? = (n.qs k).departures.head?.map (Slot.map f) := by
    rw [h.qs, ← List.head?_map]; rfl
  rw [e1]
  rcases (n.qs k).departures.head? with _ | _ | a
  · exact .error _
  · exact .error _
  simp only [Option.map_some, Slot.map, h.destination hN]
  rcases n.destination N k a with err | ⟨e, d⟩
  · exact .error _
  simp only [hN.nE]
  split
  · exact .error _
  have h1 : Same f J { n with unifCalls := n.unifCalls + d } { n' with unifCalls := n'.unifCalls + d } :=
    ⟨h.qs, h.numAgents, h.heap, h.t, h.numEvents, h.initialized, h.bas, h.probs, by simp only [h.unifCalls], h.jitCalls, h.free⟩
  have e2 : (n'.qs e).time = f (n.qs e).time := h.time e
  have e3 : atCapacity (N'.qc e) (n'.qs e) = atCapacity (N.qc e) (n.qs e) := by rw [h.qs, atCapacity_map (hN.qc e)]
  rw [e2, e3, (hN.qc k).edge]
  have hx : ERel (Same f J)
      (if atCapacity (N.qc e) (n.qs e) = true ∧ e ≠ (N.qc k).edge.idx then
        Net.blocked N { n with unifCalls := n.unifCalls + d } k e
      else Net.move N { n with unifCalls := n.unifCalls + d } k e t)
      (if atCapacity (N.qc e) (n.qs e) = true ∧ e ≠ (N.qc k).edge.idx then
        Net.blocked N' { n' with unifCalls := n'.unifCalls + d } k e
      else Net.move N' { n' with unifCalls := n'.unifCalls + d } k e (f t)) := by
    split
    · exact h1.blocked hf hN k e
    · exact h1.move hf hN k e t
  generalize (if atCapacity (N.qc e) (n.qs e) = true ∧ e ≠ (N.qc k).edge.idx then
        Net.blocked N { n with unifCalls := n.unifCalls + d } k e
      else Net.move N { n with unifCalls := n.unifCalls + d } k e t) = x at hx ⊢
  generalize (if atCapacity (N.qc e) (n.qs e) = true ∧ e ≠ (N.qc k).edge.idx then
        Net.blocked N' { n' with unifCalls := n'.unifCalls + d } k e
      else Net.move N' { n' with unifCalls := n'.unifCalls + d } k e (f t)) = x' at hx ⊢
  cases hx with
  | error => exact .error _
  | ok hx => exact hx.pushBoth hf hN k e _

theorem Same.arrival {f : T → T'} (hf : TimeMap f) {N : NetCfg T R} {N' : NetCfg T' R} (hN : N.Conj f J N')
    {n : Net T R} {n' : Net T' R} (h : Same f J n n') (k : Nat) :
    ERel (Same f J) (n.arrival N k) (n'.arrival N' k) := by
  unfold Net.arrival
  have e4 : (if (n'.qs k).active && n'.maxed N' then setInactive (n'.qs k) else n'.qs k) =
      (if (n.qs k).active && n.maxed N then setInactive (n.qs k) else n.qs k).map f := by
    rw [apply_ite (QS.map f), h.qs, h.maxed hN]; rfl
  simp only [e4, nextEvent_map hf (hN.qc k)]
  rcases nextEvent (N.qc k) (if (n.qs k).active && n.maxed N then setInactive (n.qs k) else n.qs k) with err | ⟨s, r⟩
  · exact .error _
  simp only [mapE2, (hN.qc k).edge]
  have h1 := (h.setQ k (s := s) rfl).setNum (N.qc k).edge.idx s.numTotal
  have e5 : (s.map f).numTotal = s.numTotal := rfl
  rw [e5]
  generalize (n.setQ k s).setNum (N.qc k).edge.idx s.numTotal = m at h1 ⊢
  generalize (n'.setQ k (s.map f)).setNum (N.qc k).edge.idx s.numTotal = m' at h1 ⊢
  simp only [h1.time, hf.lt_top, h1.numEvents]
  split
  · exact h1.pushKey hf hN _ k
  · exact .ok h1

theorem Same.step {f : T → T'} (hf : TimeMap f) {N : NetCfg T R} {N' : NetCfg T' R} (hN : N.Conj f J N')
    {n : Net T R} {n' : Net T' R} (h : Same f J n n') : ERel (Same f J) (n.step N) (n'.step N') := by
  unfold Net.step
  rw [h.heap.size]
  split
  · exact .ok ⟨h.qs, h.numAgents, h.heap, hf.top.symm, h.numEvents, h.initialized, h.bas, h.probs, h.unifCalls, h.jitCalls, h.free⟩
  have hp := PQ.pop_same hf h.heap
  generalize n.heap.pop = x at hp ⊢
  generalize n'.heap.pop = x' at hp ⊢
  cases hp with
  | none => exact .error _
  | some hp =>
    rename_i a b
    obtain ⟨a1, a2⟩ := a
    obtain ⟨b1, b2⟩ := b
    obtain ⟨hp, rfl⟩ := hp
    cases a2 with
    | none => exact .error _
    | some r =>
      obtain ⟨t, k⟩ := r
      simp only [Option.map_some, entry, hN.nE]
      split
      · exact .error _
      have e1 : nextEventDescription (N'.qc k) (n'.qs k) = nextEventDescription (N.qc k) (n.qs k) := by
        rw [h.qs, nextEventDescription_map hf (hN.qc k)]
      have h1 : Same f J { n with heap := a1, t := t, numEvents := n.numEvents + 1 }
          { n' with heap := b1, t := f t, numEvents := n'.numEvents + 1 } :=
        ⟨h.qs, h.numAgents, hp, rfl, by simp only [h.numEvents], h.initialized, h.bas, h.probs, h.unifCalls, h.jitCalls, h.free⟩
      rw [e1]
      split
      · exact h1.departure hf hN k t
      · split
        · exact h1.arrival hf hN k
        · exact .ok h1

theorem Same.steps {f : T → T'} (hf : TimeMap f) {N : NetCfg T R} {N' : NetCfg T' R} (hN : N.Conj f J N') (m : Nat)
    {n : Net T R} {n' : Net T' R} (h : Same f J n n') : ERel (Same f J) (n.steps N m) (n'.steps N' m) := by
  induction m generalizing n n' with
  | zero => exact .ok h
  | succ m ih =>
    simp only [Net.steps]
    have hs := h.step hf hN
    generalize n.step N = x at hs ⊢
    generalize n'.step N' = x' at hs ⊢
    cases hs with
    | error => exact .error _
    | ok hs => exact ih hs

theorem Same.simulate {f : T → T'} (hf : TimeMap f) {N : NetCfg T R} {N' : NetCfg T' R} (hN : N.Conj f J N') (m : Nat)
    {n : Net T R} {n' : Net T' R} (h : Same f J n n') : ERel (Same f J) (n.simulate N m) (n'.simulate N' m) := by
  unfold Net.simulate
  rw [h.initialized]
  split
  · exact h.steps hf hN m
  · exact .error _

theorem Same.stepsUntil {f : T → T'} (hf : TimeMap f) {N : NetCfg T R} {N' : NetCfg T' R} (hN : N.Conj f J N') (u : T)
    (fuel : Nat) {n : Net T R} {n' : Net T' R} (h : Same f J n n') :
    ORel (ERel (Same f J)) (n.stepsUntil N u fuel) (n'.stepsUntil N' (f u) fuel) := by
  induction fuel generalizing n n' with
  | zero =>
    simp only [Net.stepsUntil, h.t, hf.lt]
    split
    · exact .none
    · exact .some (.ok h)
  | succ fuel ih =>
    simp only [Net.stepsUntil, h.t, hf.lt]
    split
    · have hs := h.step hf hN
      generalize n.step N = x at hs ⊢
      generalize n'.step N' = x' at hs ⊢
      cases hs with
      | error => exact .some (.error _)
      | ok hs => exact ih hs
    · exact .some (.ok h)

theorem Same.keys {f : T → T'} (hf : TimeMap f) {N : NetCfg T R} {N' : NetCfg T' R} (hN : N.Conj f J N')
    {n : Net T R} {n' : Net T' R} (h : Same f J n n') : n'.keys N' = (n.keys N).map (entry f) := by
  simp only [Net.keys, hN.nE, h.time, hf.lt_top, (hN.qc _).edge, List.map_map]
  rfl

theorem Same.activate {f : T → T'} (hf : TimeMap f) {N : NetCfg T R} {N' : NetCfg T' R} (hN : N.Conj f J N') (l : List Nat)
    {n : Net T R} {n' : Net T' R} (h : Same f J n n') : ERel (Same f J) (n.activate N l) (n'.activate N' l) := by
  induction l generalizing n n' with
  | nil => exact .ok h
  | cons e es ih =>
    simp only [Net.activate, hN.nE]
    split
    · exact .error _
    rw [h.qs, setActive_map hf (hN.qc e)]
    cases Verif.setActive (N.qc e) (n.qs e) with
    | error e => exact .error _
    | ok s => exact ih ((h.setQ e (s := s) rfl).setNum e s.numTotal)

theorem Conj.selection {f : T → T'} {N : NetCfg T R} {N' : NetCfg T' R} (hN : N.Conj f J N')
    (pick : List Nat → Nat → List Nat) (a : InitArg) : selection N' pick a = selection N pick a := by
  have : candidates N' = candidates N := by
    simp only [candidates, hN.nE, (hN.qc _).edge]
  unfold Net.selection
  rw [this]

theorem Conj.sift {f : T → T'} {N : NetCfg T R} {N' : NetCfg T' R} (hN : N.Conj f J N') (l : List Nat) :
    sift N' l = sift N l := by
  induction l with
  | nil => rfl
  | cons e es ih => simp only [Net.sift, hN.nE, (hN.qc _).edge, ih]

theorem Same.initialise {f : T → T'} (hf : TimeMap f) {N : NetCfg T R} {N' : NetCfg T' R} (hN : N.Conj f J N')
    (pick : List Nat → Nat → List Nat) {n : Net T R} {n' : Net T' R} (h : Same f J n n') (a : InitArg) :
    ERel (Same f J) (n.initialise N pick a) (n'.initialise N' pick a) := by
  unfold Net.initialise
  rw [Conj.selection hN]
  cases selection N pick a with
  | error e => exact .error _
  | ok l =>
    simp only [Conj.sift hN]
    cases sift N l with
    | error e => exact .error _
    | ok l =>
      simp only
      split
      · exact .error _
      have e : truncate N' l = truncate N l := by simp only [truncate, hN.maxAgents]
      rw [e]
      have hs := h.activate hf hN (truncate N l)
      generalize n.activate N (truncate N l) = x at hs ⊢
      generalize n'.activate N' (truncate N l) = x' at hs ⊢
      cases hs with
      | error => exact .error _
      | ok hs =>
        rename_i m m'
        simp only [hs.keys hf hN, hN.nE]
        have hp := PQ.init_same hf (Net.keys N m) N.nE
        generalize PQ.init (Net.keys N m) N.nE = y at hp ⊢
        generalize PQ.init ((Net.keys N m).map (entry f)) N.nE = y' at hp ⊢
        cases hp with
        | none => exact .error _
        | some hp =>
          exact .ok ⟨hs.qs, hs.numAgents, hp, hs.t, hs.numEvents, rfl, hs.bas, hs.probs, hs.unifCalls, hs.jitCalls, hs.free⟩

theorem Same.clear {f : T → T'} (hf : TimeMap f) {N : NetCfg T R} {N' : NetCfg T' R} (hN : N.Conj f J N')
    {n : Net T R} {n' : Net T' R} (h : Same f J n n') : Same f J (n.clear N) (n'.clear N') :=
  ⟨fun k => by simp only [Net.clear, h.qs, clear_map hf (hN.qc k)], rfl, PQ.Same.empty f, hf.zero.symm, rfl, rfl, h.bas,
    h.probs, h.unifCalls, h.jitCalls, h.free⟩

theorem Same.copy {f : T → T'} (hf : TimeMap f) {N : NetCfg T R} {N' : NetCfg T' R} (hN : N.Conj f J N')
    {n : Net T R} {n' : Net T' R} (h : Same f J n n') : ORel (Same f J) (n.copy N) (n'.copy N') := by
  unfold Net.copy
  rw [h.initialized, h.keys hf hN, hN.nE]
  split
  · have hp := PQ.init_same hf (Net.keys N n) N.nE
    generalize PQ.init (Net.keys N n) N.nE = y at hp ⊢
    generalize PQ.init ((Net.keys N n).map (entry f)) N.nE = y' at hp ⊢
    cases hp with
    | none => exact .none
    | some hp =>
      exact .some ⟨h.qs, h.numAgents, hp, h.t, h.numEvents, rfl, h.bas, h.probs, h.unifCalls, h.jitCalls, h.free⟩
  · exact .some ⟨h.qs, h.numAgents, PQ.Same.empty f, h.t, h.numEvents, rfl, h.bas, h.probs, h.unifCalls, h.jitCalls, h.free⟩

theorem Same.collect {f : T → T'} {n : Net T R} {n' : Net T' R} (h : Same f J n n') (b : Bool) (ks : List Nat) :
    Same f J (n.collect b ks) (n'.collect b ks) := by
  induction ks generalizing n n' with
  | nil => exact h
  | cons k ks ih => exact ih (h.setQ k (by rw [h.qs]; rfl))

theorem Same.clearData {f : T → T'} {n : Net T R} {n' : Net T' R} (h : Same f J n n') (ks : List Nat) :
    Same f J (n.clearData ks) (n'.clearData ks) := by
  induction ks generalizing n n' with
  | nil => exact h
  | cons k ks ih => exact ih (h.setQ k (by rw [h.qs]; rfl))

end Net

theorem NetOp.run_same {f : T → T'} (hf : TimeMap f) {N : NetCfg T R} {N' : NetCfg T' R} (hN : N.Conj f J N')
    {n : Net T R} {n' : Net T' R} (h : n.Same f J n') (op : NetOp R)
    (hop : ∀ b, op = .setBlocking b → b = true → J) : ERel (Net.Same f J) (op.run N n) (op.run N' n') := by
  cases op with
  | step => exact h.simulate hf hN 1
  | initialise pick a => exact h.initialise hf hN pick a
  | clear => exact .ok (h.clear hf hN)
  | collect b ks => exact .ok (h.collect b ks)
  | clearData ks => exact .ok (h.clearData ks)
  | setProbs p => exact .ok ⟨h.qs, h.numAgents, h.heap, h.t, h.numEvents, h.initialized, h.bas, rfl, h.unifCalls, h.jitCalls, h.free⟩
  | setBlocking b =>
    exact .ok ⟨h.qs, h.numAgents, h.heap, h.t, h.numEvents, h.initialized, rfl, h.probs, h.unifCalls, h.jitCalls, hop b rfl⟩
  | copy =>
    simp only [run]
    have hp := h.copy hf hN
    generalize n.copy N = y at hp ⊢
    generalize n'.copy N' = y' at hp ⊢
    cases hp with
    | none => exact .error _
    | some hp => exact .ok hp
  | setServers k m =>
    refine .ok (h.setQ k ?_)
    rw [h.qs, setNumServers_map hf (hN.qc k)]
  | setInactive k =>
    refine .ok (h.setQ k ?_)
    rw [h.qs, setInactive_map]

end Networks

end Verif
