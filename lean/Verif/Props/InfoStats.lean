import Verif.InfoStats
import Verif.QueueData
import Verif.Props.Info2
import Mathlib.Tactic.Abel

/-! # C113: what `InfoAgent.stats` contains -/

set_option linter.unusedSectionVars false
set_option linter.unreachableTactic false
set_option linter.unusedTactic false

namespace Verif.InfoSpec

open Verif QueueSpec

variable {T : Type*} [LinearOrder T] [OrderTop T] [Zero T]

theorem last_eq (d : Data T) (x : Nat × Nat) : d.last x = (d.rows x).getLast? := by
  induction d with
  | nil => rfl
  | cons p d ih => obtain ⟨i, rs⟩ := p; simp only [Data.last, Data.rows, ih]; split <;> rfl

/-! ## The calls -/

theorem action_loss {c : QCfg T} (hk : c.kind = .loss) (x : QS T) (b : Agent T) (st : Nat) :
    queueAction c x b st = ({ x with log := x.log ++ [(b.id, st)] }, b) := by
  simp [queueAction, hk]

theorem seeService_spec {c : QCfg T} (hk : c.kind = .loss) {s s' : QS T} {v v' : Seen T}
    (h : seeService c s v = .ok (s', v')) :
    serviceFromQueue c s = .ok s' ∧ ∃ a rest, s.queue = a :: rest ∧ v' = v ++ [(a.id, s'.data.last a.id)] := by
  unfold seeService at h
  unfold serviceFromQueue
  simp only [action_loss hk, look] at h ⊢
  split at h
  · simp at h
  · rename_i a rest hq
    simp only [hq]
    split at h
    · simp at h
    · rename_i deps hp
      simp only [hp]
      simp only [Except.ok.injEq, Prod.mk.injEq] at h
      obtain ⟨rfl, rfl⟩ := h
      exact ⟨rfl, a, rest, rfl, rfl⟩

/-- The calls in a departure: the agent taken into service, then the one that leaves. -/
theorem seeDepart_spec {c : QCfg T} (hk : c.kind = .loss) {s s' : QS T} {v v' : Seen T}
    (h : seeDepart c s v = .ok (s', v')) :
    ∃ a deps l, heappop Slot.time s.departures = some (.agent a, deps) ∧ departEvent c s = .ok (s', some a) ∧
      v' = v ++ (l ++ [(a.id, s'.data.last a.id)]) ∧
      ((∃ b rest, s.queue = b :: rest ∧ s.numServers.lt (s.numSystem - 1 - s.queue.length) = true ∧
          l = [(b.id, s'.data.last b.id)]) ∨
        ((s.queue = [] ∨ s.numServers.lt (s.numSystem - 1 - s.queue.length) = false) ∧ l = [])) := by
  unfold seeDepart at h
  unfold departEvent
  split at h
  · simp at h
  · simp at h
  · rename_i a deps hp
    simp only [hp]
    simp only [action_loss hk, look] at h ⊢
    generalize hg : (if s.collectData then _ else _ : QS T) = s1 at h ⊢
    have e1 : s1.queue = s.queue ∧ s1.numServers = s.numServers ∧ s1.numSystem = s.numSystem - 1 := by
      rw [← hg]; split <;> exact ⟨rfl, rfl, rfl⟩
    split at h
    · simp at h
    · rename_i s2 v2 h2
      simp only [Except.ok.injEq, Prod.mk.injEq] at h
      obtain ⟨rfl, rfl⟩ := h
      by_cases hq : 0 < s1.queue.length ∧ s1.numServers.lt (s1.numSystem - s1.queue.length) = true
      · rw [if_pos hq] at h2
        obtain ⟨g1, b, rest, g2, g3⟩ := seeService_spec hk h2
        rw [if_pos hq, g1]
        refine ⟨a, deps, [(b.id, s2.data.last b.id)], rfl, rfl, ?_, .inl ⟨b, rest, e1.1 ▸ g2, ?_, rfl⟩⟩
        · rw [g3, List.append_assoc]; rfl
        · rw [← e1.1, ← e1.2.1, ← e1.2.2]; exact hq.2
      · rw [if_neg hq] at h2
        simp only [Except.ok.injEq, Prod.mk.injEq] at h2
        obtain ⟨rfl, rfl⟩ := h2
        rw [if_neg hq]
        refine ⟨a, deps, [], rfl, rfl, rfl, .inr ⟨?_, rfl⟩⟩
        rw [e1.1, e1.2.1, e1.2.2] at hq
        by_cases h0 : s.queue = []
        · exact .inl h0
        · right
          by_contra hc
          exact hq ⟨List.length_pos_iff.mpr h0, by simpa using hc⟩

/-- The calls in an admitted arrival. -/
theorem seeArrive_spec {c : QCfg T} (hk : c.kind = .loss) {s s' : QS T} {v v' : Seen T}
    (h : seeArrive c s v = .ok (s', v')) :
    ∃ a arr n m, heappop Slot.time s.arrivals = some (.agent a, arr) ∧ infoArriveEvent c s = .ok (s', none) ∧
      ((s.numServers.le (s.numSystem + 1) = true ∧
          v' = v ++ [(a.id, if s.collectData then (s.data.append a.id ⟨a.time, 0, 0, n, m⟩).last a.id else s.data.last a.id),
            (a.id, s'.data.last a.id)]) ∨
        (s.numServers.le (s.numSystem + 1) = false ∧ v' = v ++ [(a.id, s'.data.last a.id)])) := by
  unfold seeArrive at h
  unfold infoArriveEvent
  split at h
  · simp at h
  · simp at h
  · rename_i a arr hp
    simp only [hp]
    simp only [action_loss hk, look] at h ⊢
    have key : ∀ s1, (if s.active then infoAddArrival c { s with arrivals := arr, currentT := a.time } else
        .ok { s with arrivals := arr, currentT := a.time }) = .ok s1 →
        s1.numServers = s.numServers ∧ s1.numSystem = s.numSystem ∧ s1.data = s.data ∧ s1.collectData = s.collectData := by
      intro s1 h1
      split at h1
      · unfold infoAddArrival at h1
        simp only at h1
        split at h1
        · split at h1
          · simp at h1
          · split at h1
            · simp at h1
            · simp only [Except.ok.injEq] at h1
              rw [← h1]
              simp only [bumpTime]
              split <;> exact ⟨rfl, rfl, rfl, rfl⟩
        · simp only [Except.ok.injEq] at h1
          rw [← h1]
          exact ⟨rfl, rfl, rfl, rfl⟩
      · simp only [Except.ok.injEq] at h1
        rw [← h1]
        exact ⟨rfl, rfl, rfl, rfl⟩
    split at h
    · simp at h
    · rename_i s1 h1
      obtain ⟨k1, k2, k3, k4⟩ := key s1 h1
      simp only [h1]
      cases hc : s.collectData <;> simp only [k4, hc, k1, k2, Bool.false_eq_true, if_true, if_false] at h ⊢
      all_goals
        cases hl : s.numServers.le (s.numSystem + 1) <;> simp only [hl, Bool.false_eq_true, if_true, if_false] at h ⊢
        · simp only [Except.ok.injEq, Prod.mk.injEq] at h
          obtain ⟨rfl, rfl⟩ := h
          exact ⟨a, arr, 0, 0, by first | rfl | trivial, by first | rfl | trivial, .inr ⟨by first | rfl | trivial, by first | rfl | trivial⟩⟩
        · split at h
          · simp at h
          · rename_i deps hd
            simp only [Except.ok.injEq, Prod.mk.injEq] at h
            obtain ⟨rfl, rfl⟩ := h
            simp only [hd]
            refine ⟨a, arr, s1.queue.length, s.numSystem + 1, by first | rfl | trivial, by first | rfl | trivial, .inl ⟨by first | rfl | trivial, ?_⟩⟩
            simp only [List.append_assoc, List.cons_append, List.nil_append]
            first
              | rfl
              | (rw [← k3]; rfl)

theorem seeService_data {c : QCfg T} {s s' : QS T} {a : Agent T} {rest : List (Agent T)} (hq : s.queue = a :: rest)
    (h : serviceFromQueue c s = .ok s') (hk : c.kind = .loss) : s'.queue = rest ∧ s'.currentT = s.currentT ∧
      s'.collectData = s.collectData ∧
      s'.data = if s.collectData then s.data.modify a.id (fun r => { r with start := s.currentT }) else s.data := by
  unfold serviceFromQueue at h
  simp only [action_loss hk, hq] at h
  split at h
  · simp at h
  · simp only [Except.ok.injEq] at h
    rw [← h]
    cases s.collectData <;> exact ⟨rfl, rfl, rfl, rfl⟩

/-- The calls in `set_num_servers`. -/
theorem seeMany_spec {c : QCfg T} (hk : c.kind = .loss) : ∀ (k : Nat) {s s' : QS T} {v v' : Seen T},
    s.collectData = true → ((s.queue.take k).map (·.id)).Nodup → seeMany c k s v = .ok (s', v') →
      v' = v ++ (s.queue.take k).map fun a => (a.id, ((startData s.currentT s.data (s.queue.take k)).rows a.id).getLast?)
  | 0, s, s', v, v', _, _, h => by simp [seeMany] at h; simp [h]
  | k + 1, s, s', v, v', hon, hn, h => by
    unfold seeMany at h
    split at h
    · simp at h
    · rename_i s1 v1 h1
      obtain ⟨g1, a, rest, g2, g3⟩ := seeService_spec hk h1
      obtain ⟨d1, d2, d3, d4⟩ := seeService_data g2 g1 hk
      simp only [hon, if_true] at d4 d3
      simp only [g2, List.take_succ_cons, List.map_cons, List.nodup_cons] at hn ⊢
      have ih := seeMany_spec hk k d3 (by rw [d1]; exact hn.2) h
      rw [ih, g3, d1, d2, d4, List.append_assoc, startData]
      congr 1
      simp only [List.singleton_append, List.cons.injEq, and_true, Prod.mk.injEq, true_and]
      rw [last_eq, startData_rows _ _ _ hn.2, if_neg hn.1]

theorem seeService_ok {c : QCfg T} (hk : c.kind = .loss) {s s' : QS T} (v : Seen T) (h : serviceFromQueue c s = .ok s') :
    ∃ v', seeService c s v = .ok (s', v') := by
  unfold serviceFromQueue at h
  unfold seeService
  simp only [action_loss hk, look] at h ⊢
  split at h
  · simp at h
  · rename_i a rest hq
    simp only [hq]
    split at h
    · simp at h
    · rename_i deps hp
      simp only [hp]
      simp only [Except.ok.injEq] at h
      exact ⟨_, by rw [← h]⟩

theorem seeMany_ok {c : QCfg T} (hk : c.kind = .loss) : ∀ (k : Nat) {s s' : QS T} (v : Seen T),
    serviceMany c k s = .ok s' → ∃ v', seeMany c k s v = .ok (s', v')
  | 0, s, s', v, h => by simp only [serviceMany, Except.ok.injEq] at h; exact ⟨v, by rw [seeMany, h]⟩
  | k + 1, s, s', v, h => by
    unfold serviceMany at h
    split at h
    · simp at h
    · rename_i s1 h1
      obtain ⟨v1, g1⟩ := seeService_ok hk v h1
      obtain ⟨v2, g2⟩ := seeMany_ok hk k v1 h
      exact ⟨v2, by rw [seeMany, g1]; exact g2⟩

/-! ## What happens to one agent in one operation -/

/-- Where an agent is. -/
inductive Place | away | waiting | serving
deriving DecidableEq

/-- Where agent `x` is: in the line, in service, or neither. -/
def place (s : QS T) (x : Nat × Nat) : Place :=
  if x ∈ s.queue.map (·.id) then .waiting else if x ∈ (agents s.departures).map (·.id) then .serving else .away

/-- What an operation does to the rows and the place of agent `x`, which rows `x` finds in `queue.data` when it calls
`queue_action`, and how often it is turned away. -/
inductive Doing (x : Nat × Nat) (s s' : QS T) : List (Option (Row T)) → Nat → Prop
  | none : s'.data.rows x = s.data.rows x → place s' x = place s x → Doing x s s' [] 0
  | queued (r : Row T) : place s x = .away → place s' x = .waiting → s'.data.rows x = s.data.rows x ++ [r] → r.start = 0 →
      Doing x s s' [some r] 0
  | served (r : Row T) (n : Nat) (m : Int) : place s x = .away → place s' x = .serving → s'.data.rows x = s.data.rows x ++ [r] →
      r.start = r.arr → Doing x s s' [some ⟨r.arr, 0, 0, n, m⟩, some r] 0
  | start (R : List (Row T)) (r : Row T) (t : T) : place s x = .waiting → place s' x = .serving → s.data.rows x = R ++ [r] →
      s'.data.rows x = R ++ [{ r with start := t }] → Doing x s s' [some { r with start := t }] 0
  | left (R : List (Row T)) (r : Row T) (t : T) : place s x = .serving → place s' x = .away → s.data.rows x = R ++ [r] →
      s'.data.rows x = R ++ [{ r with dep := t }] → Doing x s s' [some { r with dep := t }] 0
  | lost (r : Row T) : place s x = .away → place s' x = .away → s'.data.rows x = s.data.rows x ++ [r] → Doing x s s' [] 1

/-- The rows seen by `x`. -/
def seenBy (x : Nat × Nat) (v : Seen T) : List (Option (Row T)) := (v.filter fun p => p.1 = x).map (·.2)

/-- How often `x` is among the agents turned away. -/
def lostBy (x : Nat × Nat) (l : List (Agent T)) : Nat := (l.filter fun a => a.id = x).length

theorem doing_none {x : Nat × Nat} {s s' : QS T} {v : Seen T} {l : List (Agent T)} (hv : ∀ p ∈ v, p.1 ≠ x)
    (hl : ∀ a ∈ l, a.id ≠ x) (h1 : s'.data.rows x = s.data.rows x) (h2 : place s' x = place s x) :
    Doing x s s' (seenBy x v) (lostBy x l) := by
  have e1 : seenBy x v = [] := by
    unfold seenBy
    rw [List.filter_eq_nil_iff.mpr (by simpa using hv)]; rfl
  have e2 : lostBy x l = 0 := by
    unfold lostBy
    rw [List.filter_eq_nil_iff.mpr (by simpa using hl)]; rfl
  rw [e1, e2]
  exact .none h1 h2

theorem place_congr {s s' : QS T} {x : Nat × Nat} (h1 : x ∈ s'.queue.map (·.id) ↔ x ∈ s.queue.map (·.id))
    (h2 : x ∈ (agents s'.departures).map (·.id) ↔ x ∈ (agents s.departures).map (·.id)) : place s' x = place s x := by
  unfold place
  simp only [h1, h2]

theorem place_away {s : QS T} {x : Nat × Nat} (h1 : x ∉ s.queue.map (·.id)) (h2 : x ∉ (agents s.departures).map (·.id)) :
    place s x = .away := by
  unfold place; rw [if_neg h1, if_neg h2]

theorem place_waiting {s : QS T} {x : Nat × Nat} (h1 : x ∈ s.queue.map (·.id)) : place s x = .waiting := by
  unfold place; rw [if_pos h1]

theorem place_serving {s : QS T} {x : Nat × Nat} (h1 : x ∉ s.queue.map (·.id)) (h2 : x ∈ (agents s.departures).map (·.id)) :
    place s x = .serving := by
  unfold place; rw [if_neg h1, if_pos h2]

theorem seeNext_info {c : QCfg T} (hk : c.kind = .loss) {s s' : QS T} {v v' : Seen T} (h : seeNext c s v = .ok (s', v')) :
    infoRun c s .next = .ok s' := by
  unfold seeNext at h
  simp only [infoRun, infoLossEvent, infoBaseEvent]
  split at h
  · rename_i h1
    obtain ⟨a, deps, l, -, g2, -⟩ := seeDepart_spec hk h
    simp only [if_pos h1, g2]
  · rename_i h1
    simp only [if_neg h1]
    split at h
    · rename_i h2
      simp only [if_pos h2]
      split at h
      · rename_i h3
        obtain ⟨a, arr, n, m, -, g2, -⟩ := seeArrive_spec hk h
        simp only [if_pos h3, g2]
      · rename_i h3
        simp only [if_neg h3]
        split at h
        · simp at h
        · rename_i s1 r h4
          simp only [Except.ok.injEq, Prod.mk.injEq] at h
          simp only [h4, h.1]
    · rename_i h2
      simp only [Except.ok.injEq, Prod.mk.injEq] at h
      simp only [if_neg h2]
      rw [h.1]

theorem seeRun_info {c : QCfg T} (hk : c.kind = .loss) {s s' : QS T} {v v' : Seen T} {op : QOp T}
    (h : seeRun c s v op = .ok (s', v')) : infoRun c s op = .ok s' := by
  cases op with
  | next => exact seeNext_info hk h
  | _ =>
    simp only [seeRun] at h
    split at h
    · simp at h
    · rename_i h1
      simp only [Except.ok.injEq, Prod.mk.injEq] at h
      rw [h1, h.1]

/-- The operations considered: data are collected throughout, an agent is in one place at a time, no `clear`. -/
def StatOk (c : QCfg T) (s : QS T) (op : QOp T) : Prop := DataOk c s op ∧ op ≠ .clear

theorem seenBy_append (x : Nat × Nat) (v w : Seen T) : seenBy x (v ++ w) = seenBy x v ++ seenBy x w := by
  simp [seenBy]

theorem doing {c : QCfg T} (hk : c.kind = .loss) {s s' : QS T} {v v' : Seen T} {op : QOp T} (hb : QBase s) (hd : DataInv c s)
    (hok : StatOk c s op) (hr : op.run c s = .ok s') (h : seeRun c s v op = .ok (s', v')) :
    ∃ w l, v' = v ++ w ∧ s'.lost = s.lost ++ l ∧ ∀ x, Doing x s s' (seenBy x w) (lostBy x l) := by
  have hon := hd.on
  have ho := opOut c s s' op (.inr hk) hb hr
  have same : ∀ x, s'.data = s.data → s'.queue = s.queue → (agents s'.departures).map (·.id) = (agents s.departures).map (·.id) →
      Doing x s s' (seenBy x []) (lostBy x []) := fun x h1 h2 h3 =>
    doing_none (by simp) (by simp) (by rw [h1]) (place_congr (by rw [h2]) (by rw [h3]))
  cases ho with
  | ev s' r _ h1 =>
    simp only [seeRun, seeNext] at h
    cases h1 with
    | idle t1 t2 h2 =>
      rw [t1, t2, if_neg (lt_irrefl _), if_neg (lt_irrefl _)] at h
      simp only [Except.ok.injEq, Prod.mk.injEq] at h
      subst h2
      exact ⟨[], [], by simp [h.2], by simp, fun x => same x rfl rfl rfl⟩
    | dep a hlt h2 hhead =>
      rw [if_pos hlt] at h
      obtain ⟨a', deps', l, p1, -, p3, p4⟩ := seeDepart_spec hk h
      obtain ⟨a'', l', q1, -, -, -, -, q6⟩ := hb.okD.pop (hlt.trans_le le_top)
      rw [p1] at q1
      simp only [Option.some.injEq, Prod.mk.injEq, Slot.agent.injEq] at q1
      rw [hhead] at q6
      simp only [Option.some.injEq, Slot.agent.injEq] at q6
      have ea : a' = a := q1.1.trans q6.symm
      subst ea
      refine ⟨l ++ [(a'.id, s'.data.last a'.id)], [], p3, by simp [h2.lost], fun x => ?_⟩
      obtain ⟨deps, g1, g2, g3⟩ := h2.served
      have g1' : ((agents s.departures).map (·.id)).Perm (a'.id :: (agents deps).map (·.id)) := by
        simpa using g1.map (fun x : Agent T => x.id)
      have hnd := (List.nodup_append.mp hd.nodup).2.1
      have hnd2 := List.nodup_append.mp hnd
      have hnd3 := List.nodup_cons.mp (g1'.nodup_iff.mp hnd2.2.1)
      have haq : a'.id ∉ s.queue.map (·.id) := fun hm => hnd2.2.2 _ hm a'.id (g1'.mem_iff.mpr (by simp)) rfl
      obtain ⟨R, r, e1, -⟩ := hd.serv a'.id (g1'.mem_iff.mpr (by simp))
      have ps : place s a'.id = .serving := place_serving haq (g1'.mem_iff.mpr (by simp))
      rcases g3 with ⟨b, rest, k1, k2, k3, -, k5, -, k7⟩ | ⟨k1, k2, -, k4, -, k6⟩
      · rcases p4 with ⟨b', rest', z1, -, rfl⟩ | ⟨z1, -⟩
        swap
        · rcases z1 with z1 | z1
          · simp [k1] at z1
          · rw [k2] at z1; simp at z1
        rw [k1] at z1
        obtain ⟨rfl, rfl⟩ := (List.cons.injEq _ _ _ _).mp z1
        rw [hon, if_pos rfl] at k7
        have hba : b.id ≠ a'.id := fun hm => haq (by rw [k1]; simp [hm])
        have k5' : ((agents s'.departures).map (·.id)).Perm (b.id :: (agents deps).map (·.id)) := by
          simpa using k5.map (fun x : Agent T => x.id)
        have hbr : b.id ∉ rest.map (·.id) := by
          have := hnd2.1; rw [k1] at this; simp only [List.map_cons, List.nodup_cons] at this; exact this.1
        have hbd : b.id ∉ (agents deps).map (·.id) := fun hm =>
          hnd2.2.2 b.id (by rw [k1]; simp) b.id (g1'.mem_iff.mpr (by simp [hm])) rfl
        by_cases hxa : x = a'.id
        · subst hxa
          have e2 : s'.data.rows a'.id = R ++ [{ r with dep := a'.time }] := by
            rw [k7, Data.rows_modify, if_neg (Ne.symm hba), Data.rows_modify, if_pos rfl, e1, modLast_snoc]
          have e3 : seenBy a'.id ([(b.id, s'.data.last b.id)] ++ [(a'.id, s'.data.last a'.id)]) =
              [some { r with dep := a'.time }] := by
            simp [seenBy, hba, last_eq, e2]
          rw [e3]
          refine .left R r a'.time ps (place_away ?_ ?_) e1 e2
          · rw [k3]; intro hm; exact haq (by rw [k1]; simp only [List.map_cons, List.mem_cons]; exact .inr hm)
          · intro hm
            rcases List.mem_cons.mp (k5'.mem_iff.mp hm) with hm | hm
            · exact hba hm.symm
            · exact hnd3.1 hm
        · by_cases hxb : x = b.id
          · subst hxb
            obtain ⟨R, r, f1, -⟩ := hd.wait b.id (by rw [k1]; simp)
            have e2 : s'.data.rows b.id = R ++ [{ r with start := a'.time }] := by
              rw [k7, Data.rows_modify, if_pos rfl, Data.rows_modify, if_neg hba, f1, modLast_snoc]
            have e3 : seenBy b.id ([(b.id, s'.data.last b.id)] ++ [(a'.id, s'.data.last a'.id)]) =
                [some { r with start := a'.time }] := by
              simp [seenBy, Ne.symm hba, last_eq, e2]
            rw [e3]
            exact .start R r a'.time (place_waiting (by rw [k1]; simp))
              (place_serving (by rw [k3]; exact hbr) (k5'.mem_iff.mpr (by simp))) f1 e2
          · refine doing_none ?_ (by simp) ?_ (place_congr ?_ ?_)
            · simp [Ne.symm hxa, Ne.symm hxb]
            · rw [k7, Data.rows_modify, if_neg hxb, Data.rows_modify, if_neg hxa]
            · rw [k3, k1]; simp only [List.map_cons, List.mem_cons, hxb, false_or]
            · rw [k5'.mem_iff, g1'.mem_iff]; simp only [List.mem_cons, hxa, hxb, false_or]
      · rcases p4 with ⟨b', rest', z1, z2, -⟩ | ⟨-, rfl⟩
        · exfalso
          rcases k1 with k1 | k1
          · rw [k1] at z1; simp at z1
          · rw [k1] at z2; simp at z2
        rw [hon, if_pos rfl] at k6
        by_cases hxa : x = a'.id
        · subst hxa
          have e2 : s'.data.rows a'.id = R ++ [{ r with dep := a'.time }] := by
            rw [k6, Data.rows_modify, if_pos rfl, e1, modLast_snoc]
          have e3 : seenBy a'.id ([] ++ [(a'.id, s'.data.last a'.id)]) = [some { r with dep := a'.time }] := by
            simp [seenBy, last_eq, e2]
          rw [e3]
          exact .left R r a'.time ps (place_away (by rw [k2]; exact haq) (by rw [k4]; exact hnd3.1)) e1 e2
        · refine doing_none ?_ (by simp) ?_ (place_congr ?_ ?_)
          · simp [Ne.symm hxa]
          · rw [k6, Data.rows_modify, if_neg hxa]
          · rw [k2]
          · rw [k4, g1'.mem_iff]; simp only [List.mem_cons, hxa, false_or]
    | arr a rest hle hlt hfull h2 hhead =>
      rw [if_neg (not_lt.mpr hle), if_pos hlt, if_pos (hfull hk)] at h
      obtain ⟨a', arr', n, m, p1, -, p3⟩ := seeArrive_spec hk h
      obtain ⟨a'', l', q1, -, -, -, -, q6⟩ := hb.okA.pop hlt
      rw [p1] at q1
      simp only [Option.some.injEq, Prod.mk.injEq, Slot.agent.injEq] at q1
      rw [hhead] at q6
      simp only [Option.some.injEq, Slot.agent.injEq] at q6
      have ea : a' = a := q1.1.trans q6.symm
      subst ea
      have hpa : ((agents s.arrivals).map (·.id)).Perm (a'.id :: (agents rest).map (·.id)) := by
        simpa using h2.perm.map (fun x : Agent T => x.id)
      have hnd := List.nodup_append.mp hd.nodup
      have hna : a'.id ∉ s.queue.map (·.id) ++ (agents s.departures).map (·.id) := fun hm =>
        hnd.2.2 a'.id (hpa.mem_iff.mpr (by simp)) a'.id hm rfl
      simp only [List.mem_append, not_or] at hna
      have ps : place s a'.id = .away := place_away hna.1 hna.2
      rcases h2.served with ⟨k1, k2, -, k4, -, k6⟩ | ⟨k1, k2, -, k4, -, k6⟩
      · rcases p3 with ⟨-, p3⟩ | ⟨p3, -⟩
        swap
        · rw [k1] at p3; simp at p3
        rw [hon, if_pos rfl] at p3 k6
        have k4' : ((agents s'.departures).map (·.id)).Perm (a'.id :: (agents s.departures).map (·.id)) := by
          simpa using k4.map (fun x : Agent T => x.id)
        refine ⟨_, [], p3, by simp [h2.lost], fun x => ?_⟩
        by_cases hxa : x = a'.id
        · subst hxa
          have e2 : s'.data.rows a'.id = s.data.rows a'.id ++ [⟨a'.time, a'.time, 0, s.queue.length, s.numSystem + 1⟩] := by
            rw [k6, Data.rows_modify, if_pos rfl, Data.rows_append, if_pos rfl, modLast_snoc]
          have e3 : seenBy a'.id [(a'.id, (s.data.append a'.id ⟨a'.time, 0, 0, n, m⟩).last a'.id), (a'.id, s'.data.last a'.id)] =
              [some ⟨a'.time, 0, 0, n, m⟩, some ⟨a'.time, a'.time, 0, s.queue.length, s.numSystem + 1⟩] := by
            simp [seenBy, last_eq, e2, Data.rows_append]
          rw [e3]
          exact .served ⟨a'.time, a'.time, 0, s.queue.length, s.numSystem + 1⟩ n m ps
            (place_serving (by rw [k2]; exact hna.1) (k4'.mem_iff.mpr (by simp))) e2 rfl
        · refine doing_none ?_ (by simp) ?_ (place_congr ?_ ?_)
          · simp [Ne.symm hxa]
          · rw [k6, Data.rows_modify, if_neg hxa, Data.rows_append, if_neg hxa]
          · rw [k2]
          · rw [k4'.mem_iff]; simp only [List.mem_cons, hxa, false_or]
      · rcases p3 with ⟨p3, -⟩ | ⟨-, p3⟩
        · rw [k1] at p3; simp at p3
        rw [hon, if_pos rfl] at k6
        refine ⟨_, [], p3, by simp [h2.lost], fun x => ?_⟩
        by_cases hxa : x = a'.id
        · subst hxa
          have e2 : s'.data.rows a'.id = s.data.rows a'.id ++ [⟨a'.time, 0, 0, s.queue.length + 1, s.numSystem + 1⟩] := by
            rw [k6, Data.rows_append, if_pos rfl]
          have e3 : seenBy a'.id [(a'.id, s'.data.last a'.id)] = [some ⟨a'.time, 0, 0, s.queue.length + 1, s.numSystem + 1⟩] := by
            simp [seenBy, last_eq, e2]
          rw [e3]
          exact .queued _ ps (place_waiting (by rw [k2]; simp)) e2 rfl
        · refine doing_none ?_ (by simp) ?_ (place_congr ?_ ?_)
          · simp [Ne.symm hxa]
          · rw [k6, Data.rows_append, if_neg hxa]
          · rw [k2]; simp [hxa]
          · rw [k4]
    | block a rest hle hlt hl hfull h2 hhead =>
      rw [if_neg (not_lt.mpr hle), if_pos hlt, if_neg (by rw [hfull]; simp)] at h
      have hv : v' = v := by
        split at h
        · simp at h
        · simp only [Except.ok.injEq, Prod.mk.injEq] at h; exact h.2.symm
      refine ⟨[], _, by simp [hv], h2.lost, fun x => ?_⟩
      have hpa : ((agents s.arrivals).map (·.id)).Perm (a.id :: (agents rest).map (·.id)) := by
        simpa using h2.perm.map (fun x : Agent T => x.id)
      have hnd := List.nodup_append.mp hd.nodup
      have hna : a.id ∉ s.queue.map (·.id) ++ (agents s.departures).map (·.id) := fun hm =>
        hnd.2.2 a.id (hpa.mem_iff.mpr (by simp)) a.id hm rfl
      simp only [List.mem_append, not_or] at hna
      have k6 := h2.data
      rw [hon, if_pos rfl] at k6
      by_cases hxa : x = a.id
      · subst hxa
        have e3 : lostBy a.id [{ a with blocked := a.blocked + 1 }] = 1 := by simp [lostBy]
        rw [e3]
        exact .lost _ (place_away hna.1 hna.2)
          (place_away (by rw [h2.queue]; exact hna.1) (by rw [h2.departures]; exact hna.2))
          (by rw [k6, Data.rows_append, if_pos rfl])
      · refine doing_none (by simp) (by simp [Ne.symm hxa]) ?_ (place_congr (by rw [h2.queue]) (by rw [h2.departures]))
        rw [k6, Data.rows_append, if_neg hxa]
  | srv n s' r h1 =>
    simp only [seeRun, infoRun, hr, Except.ok.injEq, Prod.mk.injEq] at h
    have hv := h.2
    cases h1 with
    | typ h2 =>
      refine ⟨[], [], ?_, by simp, fun x => same x rfl rfl rfl⟩
      rw [← hv]
      rcases h2 with rfl | ⟨rfl, h2⟩
      · simp [seeServers]
      · simp [seeServers, h2, agentsToQueue]
    | val m h2 h3 =>
      refine ⟨[], [], ?_, by simp, fun x => same x rfl rfl rfl⟩
      rw [← hv, h2]
      simp [seeServers, h3]
    | ok new k deps hnew hag hkl h2 h3 =>
      have h3' := h3.map (fun x : Agent T => x.id)
      simp only [List.map_append, startServ_ids] at h3'
      have hqs : s.queue.map (·.id) = (s.queue.take k).map (·.id) ++ (s.queue.drop k).map (·.id) := by
        rw [← List.map_append, List.take_append_drop]
      have hnd2 := (List.nodup_append.mp hd.nodup).2.1
      rw [hqs, List.append_assoc] at hnd2
      have hn3 := List.nodup_append.mp hnd2
      have hrows := startData_rows s.currentT s.data (s.queue.take k) hn3.1
      have hdis : ∀ x, x ∈ (s.queue.take k).map (·.id) →
          x ∉ (s.queue.drop k).map (·.id) ∧ x ∉ (agents s.departures).map (·.id) := by
        intro x hx
        constructor
        · intro hm; exact hn3.2.2 x hx x (List.mem_append.mpr (.inl hm)) rfl
        · intro hm; exact hn3.2.2 x hx x (List.mem_append.mpr (.inr hm)) rfl
      obtain ⟨deps', -, -, hmany⟩ := serviceMany_spec c (by simp [hk]) k s hb.okD hkl
      obtain ⟨v2, hsee⟩ := seeMany_ok hk k v hmany
      have hspec := seeMany_spec hk k hon hn3.1 hsee
      have hv2 : v' = v2 := by
        rw [← hv]
        rcases hnew with ⟨m, rfl, hm, rfl⟩ | ⟨rfl, rfl⟩
        · simp only [seeServers, if_neg (not_le.mpr hm), hag, hsee]
        · simp only [seeServers, hag, hsee]
      refine ⟨_, [], hv2.trans hspec, by simp, fun x => ?_⟩
      by_cases hx : x ∈ (s.queue.take k).map (·.id)
      · obtain ⟨R, r, f1, -⟩ := hd.wait x (by rw [hqs]; exact List.mem_append.mpr (.inl hx))
        have e2 : (startData s.currentT s.data (s.queue.take k)).rows x = R ++ [{ r with start := s.currentT }] := by
          rw [hrows, if_pos hx, f1, modLast_snoc]
        have e3 : seenBy x ((s.queue.take k).map fun a =>
            (a.id, ((startData s.currentT s.data (s.queue.take k)).rows a.id).getLast?)) = [some { r with start := s.currentT }] := by
          generalize startData s.currentT s.data (s.queue.take k) = d at e2
          have hn := hn3.1
          clear hspec hsee hmany hrows hdis hqs hnd2 hn3 h3' h3
          generalize s.queue.take k = q at hx hn
          unfold seenBy
          induction q with
          | nil => simp at hx
          | cons b q ih =>
            simp only [List.map_cons, List.nodup_cons, List.mem_cons] at hx hn ⊢
            by_cases hbx : b.id = x
            · subst hbx
              have : ((q.map fun a => (a.id, (d.rows a.id).getLast?)).filter fun p => decide (p.1 = b.id)) = [] := by
                rw [List.filter_eq_nil_iff]
                intro p hp
                obtain ⟨a, ha, rfl⟩ := List.mem_map.mp hp
                simp only [decide_eq_true_eq]
                intro hab
                exact hn.1 (List.mem_map.mpr ⟨a, ha, hab⟩)
              rw [List.filter_cons_of_pos (by simp), List.map_cons, this, e2]
              simp
            · rw [List.filter_cons_of_neg (by simpa using hbx)]
              exact ih (hx.resolve_left (Ne.symm hbx)) hn.2
        rw [e3]
        refine .start R r s.currentT (place_waiting ?_) (place_serving (hdis x hx).1 ?_) f1 ?_
        · rw [hqs]; exact List.mem_append.mpr (.inl hx)
        · exact h3'.mem_iff.mpr (List.mem_append.mpr (.inl hx))
        · simp only [hon, if_true]; exact e2
      · refine doing_none ?_ (by simp) ?_ (place_congr ?_ ?_)
        · intro p hp
          obtain ⟨a, ha, rfl⟩ := List.mem_map.mp hp
          exact fun hm => hx (List.mem_map.mpr ⟨a, ha, hm⟩)
        · simp only [hon, if_true]; rw [hrows, if_neg hx]
        · rw [hqs]; simp only [List.mem_append, hx, false_or]
        · rw [h3'.mem_iff]; simp only [List.mem_append, hx, false_or]
  | act arr ext ν act calls ha h1 h2 h3 =>
    simp only [seeRun, seeRun_info hk h, Except.ok.injEq, Prod.mk.injEq] at h
    exact ⟨[], [], by simp [h.2], by simp, fun x => same x rfl rfl rfl⟩
  | already =>
    simp only [seeRun, seeRun_info hk h, Except.ok.injEq, Prod.mk.injEq] at h
    exact ⟨[], [], by simp [h.2], by simp, fun x => same x rfl rfl rfl⟩
  | inact =>
    simp only [seeRun, seeRun_info hk h, Except.ok.injEq, Prod.mk.injEq] at h
    exact ⟨[], [], by simp [h.2], by simp, fun x => same x rfl rfl rfl⟩
  | delay t kb s' h1 =>
    simp only [seeRun, seeRun_info hk h, Except.ok.injEq, Prod.mk.injEq] at h
    cases h1 with
    | none => exact ⟨[], [], by simp [h.2], by simp, fun x => same x rfl rfl rfl⟩
    | some a rest deps _ _ _ h4 h2 h3 =>
      have p1 := h3.map (fun x : Agent T => x.id)
      have p2 := h4.map (fun x : Agent T => x.id)
      simp only [List.map_cons] at p1 p2
      have p3 := p2.trans p1.symm
      exact ⟨[], [], by simp [h.2], by simp, fun x => doing_none (by simp) (by simp) rfl
        (place_congr Iff.rfl (p3.mem_iff.symm))⟩
  | collect b => exact absurd hok.1 (by simp [DataOk])
  | noteFull =>
    simp only [seeRun, seeRun_info hk h, Except.ok.injEq, Prod.mk.injEq] at h
    exact ⟨[], [], by simp [h.2], by simp, fun x => same x rfl rfl rfl⟩
  | noteOpen =>
    simp only [seeRun, seeRun_info hk h, Except.ok.injEq, Prod.mk.injEq] at h
    exact ⟨[], [], by simp [h.2], by simp, fun x => same x rfl rfl rfl⟩
  | clearData => exact absurd hok.1 (by simp [DataOk])
  | clear => exact absurd rfl hok.2
  | handover a arr h1 h2 h3 =>
    simp only [seeRun, seeRun_info hk h, Except.ok.injEq, Prod.mk.injEq] at h
    exact ⟨[], [], by simp [h.2], by simp, fun x => same x rfl rfl rfl⟩

/-! ## Histories -/

/-- A state of an InfoQueue after a history, with the calls of `queue_action` made in it. -/
inductive SReach (c : QCfg T) (b : Bool) (ok : QS T → QOp T → Prop) : QS T → Seen T → Prop
  | init : SReach c b ok (QS.init c b) []
  | step {s s' : QS T} {v v' : Seen T} (op : QOp T) : SReach c b ok s v → ok s op → seeRun c s v op = .ok (s', v') →
      SReach c b ok s' v'

theorem SReach.runs {c : QCfg T} (hk : c.kind = .loss) {b : Bool} {ok : QS T → QOp T → Prop} {s s' : QS T} {v v' : Seen T}
    {op : QOp T} (h : Reach c b ok s) (hr : seeRun c s v op = .ok (s', v')) : op.run c s = .ok s' := by
  have hi := seeRun_info hk hr
  by_cases hp : Past c s op
  · rw [C70_raises hk h hp] at hi; simp at hi
  · rw [← C70_otherwise_partial hk h hp]; exact hi

theorem SReach.reach {c : QCfg T} (hk : c.kind = .loss) {b : Bool} {ok : QS T → QOp T → Prop} {s : QS T} {v : Seen T}
    (h : SReach c b ok s v) : Reach c b ok s := by
  induction h with
  | init => exact .init
  | step op _ h2 h3 ih => exact ih.step op h2 (SReach.runs hk ih h3)

/-- How far a visit has come: the agent was turned away, waits, is in service, or has left. -/
inductive Stage | lost | waiting | serving | left
deriving DecidableEq

/-- What the visit with row `r` has added to `stats[n, 0]`: on arrival, at the start of service, at departure. -/
def Stage.adds {V D : Type*} (M : Meter T V D) (r : Row T) : Stage → List D
  | .lost => []
  | .waiting => [M.sub 0 r.arr]
  | .serving => [M.sub 0 r.arr, M.sub r.start r.arr]
  | .left => [M.sub 0 r.arr, M.sub r.start r.arr, M.sub r.start r.arr]

/-- The stages `L` of the visits in the rows of agent `x` fit its place. -/
def Fits : Place → List Stage → Prop
  | .away, L => ∀ k ∈ L, k = .lost ∨ k = .left
  | .waiting, L => ∃ L0, L = L0 ++ [.waiting] ∧ ∀ k ∈ L0, k = .lost ∨ k = .left
  | .serving, L => ∃ L0, L = L0 ++ [.serving] ∧ ∀ k ∈ L0, k = .lost ∨ k = .left

/-- What all the visits have added. -/
def allAdds {V D : Type*} (M : Meter T V D) (R : List (Row T)) (L : List Stage) : List D :=
  ((R.zip L).map fun p => p.2.adds M p.1).flatten

variable {V D : Type*} (M : Meter T V D)

theorem allAdds_snoc {R : List (Row T)} {L : List Stage} (h : L.length = R.length) (r : Row T) (k : Stage) :
    allAdds M (R ++ [r]) (L ++ [k]) = allAdds M R L ++ k.adds M r := by
  unfold allAdds
  rw [List.zip_append h.symm]
  simp

/-- The account of one agent. -/
structure Told (s : QS T) (v : Seen T) (x : Nat × Nat) (L : List Stage) : Prop where
  len : L.length = (s.data.rows x).length
  fits : Fits (place s x) L
  seen : (seenBy x v).map (Option.map fun r => M.sub r.start r.arr) = (allAdds M (s.data.rows x) L).map some
  lost : lostBy x s.lost = L.countP (· = .lost)

theorem Told.step {s s' : QS T} {v w : Seen T} {x : Nat × Nat} {L : List Stage} {l : List (Agent T)} (h : Told M s v x L)
    (hl : s'.lost = s.lost ++ l) (hd : Doing x s s' (seenBy x w) (lostBy x l)) : ∃ L', Told M s' (v ++ w) x L' := by
  obtain ⟨h1, h2, h3, h4⟩ := h
  have e4 : lostBy x s'.lost = lostBy x s.lost + lostBy x l := by rw [hl]; simp [lostBy]
  generalize hw : seenBy x w = sw at hd
  generalize hw' : lostBy x l = lw at hd e4
  cases hd with
  | none g1 g2 =>
    exact ⟨L, by rw [g1]; exact h1, by rw [g2]; exact h2, by rw [seenBy_append, hw, g1, List.append_nil]; exact h3,
      by rw [e4]; exact h4⟩
  | queued r g1 g2 g3 g4 =>
    refine ⟨L ++ [.waiting], by simp [g3, h1], ?_, ?_, by rw [e4, h4]; simp⟩
    · rw [g2]; rw [g1] at h2; exact ⟨L, rfl, h2⟩
    · rw [seenBy_append, hw, g3, allAdds_snoc M h1, List.map_append, h3]
      simp [Stage.adds, g4]
  | served r n m g1 g2 g3 g4 =>
    refine ⟨L ++ [.serving], by simp [g3, h1], ?_, ?_, by rw [e4, h4]; simp⟩
    · rw [g2]; rw [g1] at h2; exact ⟨L, rfl, h2⟩
    · rw [seenBy_append, hw, g3, allAdds_snoc M h1, List.map_append, h3]
      simp [Stage.adds]
  | start R r t g1 g2 g3 g4 =>
    rw [g1] at h2
    obtain ⟨L0, rfl, h6⟩ := h2
    rw [g3] at h1 h3
    simp only [List.length_append, List.length_cons, List.length_nil, Nat.add_right_cancel_iff] at h1
    refine ⟨L0 ++ [.serving], by simp [g4, h1], by rw [g2]; exact ⟨L0, rfl, h6⟩, ?_, by rw [e4, h4]; simp⟩
    rw [allAdds_snoc M h1] at h3
    rw [seenBy_append, hw, g4, allAdds_snoc M h1, List.map_append, h3]
    simp [Stage.adds]
  | left R r t g1 g2 g3 g4 =>
    rw [g1] at h2
    obtain ⟨L0, rfl, h6⟩ := h2
    rw [g3] at h1 h3
    simp only [List.length_append, List.length_cons, List.length_nil, Nat.add_right_cancel_iff] at h1
    refine ⟨L0 ++ [.left], by simp [g4, h1], ?_, ?_, by rw [e4, h4]; simp⟩
    · rw [g2]
      intro k hk
      rcases List.mem_append.mp hk with hk | hk
      · exact h6 k hk
      · simp at hk; exact .inr hk
    · rw [allAdds_snoc M h1] at h3
      rw [seenBy_append, hw, g4, allAdds_snoc M h1, List.map_append, h3]
      simp [Stage.adds]
  | lost r g1 g2 g3 =>
    refine ⟨L ++ [.lost], by simp [g3, h1], ?_, ?_, by rw [e4, h4]; simp⟩
    · rw [g2]; rw [g1] at h2
      intro k hk
      rcases List.mem_append.mp hk with hk | hk
      · exact h2 k hk
      · simp at hk; exact .inl hk
    · rw [seenBy_append, hw, g3, allAdds_snoc M h1, List.map_append, h3]
      simp [Stage.adds]

theorem SReach.told {c : QCfg T} (hk : c.kind = .loss) (hf : Forward c) {s : QS T} {v : Seen T}
    (h : SReach c true (StatOk c) s v) (x : Nat × Nat) : ∃ L, Told M s v x L := by
  induction h with
  | init => exact ⟨[], by simp [QS.init, Data.rows], by simp [place, QS.init, Fits, agents], by simp [seenBy, allAdds], by simp [lostBy, QS.init]⟩
  | step op h1 h2 h3 ih =>
    obtain ⟨L, hL⟩ := ih
    have hr := h1.reach hk
    have hd := hr.dataInv (.inr hk) hf fun _ _ h => h.1
    obtain ⟨w, l, rfl, g2, g3⟩ := doing hk (hr.base (.inr hk)) hd h2 (SReach.runs hk hr h3) h3
    exact hL.step M g2 (g3 x)

theorem foldl_act (σ : Stat V) (l : List (Option (Row T))) (d : List D)
    (h : l.map (Option.map fun r => M.sub r.start r.arr) = d.map some) :
    l.foldl (fun σ r => σ.act M r) σ = { σ with wait := d.foldl M.add σ.wait, waits := σ.waits + d.countP (M.pos ·) } := by
  induction l generalizing d σ with
  | nil =>
    cases d with
    | nil => simp
    | cons => simp at h
  | cons r l ih =>
    cases d with
    | nil => simp at h
    | cons e d =>
      cases r with
      | none => simp at h
      | some r =>
        simp only [List.map_cons, Option.map_some, List.cons.injEq, Option.some.injEq] at h
        obtain ⟨rfl, h⟩ := h
        rw [List.foldl_cons, ih _ _ h]
        simp only [Stat.act, List.foldl_cons, List.countP_cons]
        split <;> simp [*]
        omega

/-- C113, what `stats` contains: in every history of an InfoQueue that collects data, the visits of agent `x` are its
rows in `queue.data`, and `stats[n]` of the agent has been changed as follows. Each visit that was not turned away has
added minus the time of arrival to `stats[n, 0]`, and then, once when service started and once more at departure, the
time waited; `stats[n, 1]` counts those of these numbers that are positive, `stats[n, 2]` the visits turned away. -/
theorem C113_stats {c : QCfg T} (hk : c.kind = .loss) (hf : Forward c) {s : QS T} {v : Seen T}
    (h : SReach c true (StatOk c) s v) (x : Nat × Nat) (σ : Stat V) :
    ∃ L : List Stage, L.length = (s.data.rows x).length ∧ Fits (place s x) L ∧
      σ.after M x v s.lost = { wait := (allAdds M (s.data.rows x) L).foldl M.add σ.wait
                               waits := σ.waits + (allAdds M (s.data.rows x) L).countP (M.pos ·)
                               losses := σ.losses + L.countP (· = .lost) } := by
  obtain ⟨L, h1, h2, h3, h4⟩ := h.told M hk hf x
  refine ⟨L, h1, h2, ?_⟩
  unfold Stat.after
  have := foldl_act M σ (seenBy x v) _ h3
  unfold seenBy at this
  rw [List.foldl_map] at this
  simp only [this]
  simp only [lostBy] at h4
  rw [h4]

/-- C113, with exact arithmetic: when the agent is neither waiting nor in service, `stats[n, 0]` is the sum over the visits
not turned away of twice the time waited minus the time of arrival. -/
theorem C113_exact {V : Type*} [AddCommGroup V] (M : Meter T V V) (f : T → V) (h0 : f 0 = 0)
    (hs : ∀ a b, M.sub a b = f a - f b) (ha : ∀ v d, M.add v d = v + d) {c : QCfg T} (hk : c.kind = .loss) (hf : Forward c)
    {s : QS T} {v : Seen T} (h : SReach c true (StatOk c) s v) (x : Nat × Nat) (hx : place s x = .away) (σ : Stat V) :
    ∃ L : List Stage, L.length = (s.data.rows x).length ∧ (∀ k ∈ L, k = .lost ∨ k = .left) ∧
      (σ.after M x v s.lost).wait = σ.wait +
        (((s.data.rows x).zip L).map fun p => if p.2 = .left then 2 • (f p.1.start - f p.1.arr) - f p.1.arr else 0).sum := by
  obtain ⟨L, h1, h2, h3⟩ := C113_stats M hk hf h x σ
  rw [hx] at h2
  refine ⟨L, h1, h2, ?_⟩
  rw [h3]
  simp only [allAdds]
  generalize s.data.rows x = R at h1
  generalize σ.wait = w
  clear h3
  induction L generalizing R w with
  | nil => simp
  | cons k L ih =>
    cases R with
    | nil => simp at h1
    | cons r R =>
      have h4 := ih (fun k hk => h2 k (by simp [hk])) R (by simpa using h1)
      simp only [List.zip_cons_cons, List.map_cons, List.flatten_cons, List.foldl_append, List.sum_cons, h4]
      rcases h2 k (by simp) with rfl | rfl
      · simp [Stage.adds]
      · simp only [Stage.adds, List.foldl_cons, List.foldl_nil, ha, hs, h0, if_true]
        rw [two_nsmul]
        abel

/-! ## Without data -/

theorem seeService_blank {c : QCfg T} (hk : c.kind = .loss) {s s' : QS T} {v v' : Seen T} (hd : s.data = []) (hc : s.collectData = false)
    (h : seeService c s v = .ok (s', v')) : s'.data = [] ∧ s'.collectData = false ∧ ∃ a : Agent T, v' = v ++ [(a.id, none)] := by
  obtain ⟨g1, a, rest, g2, g3⟩ := seeService_spec hk h
  obtain ⟨-, -, d3, d4⟩ := seeService_data g2 g1 hk
  rw [hc] at d3 d4
  simp only [Bool.false_eq_true, if_false] at d4
  rw [d4, hd] at g3
  exact ⟨by rw [d4, hd], d3, a, g3⟩

theorem seeMany_blank {c : QCfg T} (hk : c.kind = .loss) : ∀ (k : Nat) {s s' : QS T} {v v' : Seen T}, s.data = [] →
    s.collectData = false → seeMany c k s v = .ok (s', v') → ∃ w, v' = v ++ w ∧ ∀ p ∈ w, p.2 = none
  | 0, s, s', v, v', _, _, h => by simp [seeMany] at h; exact ⟨[], by simp [h]⟩
  | k + 1, s, s', v, v', hd, hc, h => by
    unfold seeMany at h
    split at h
    · simp at h
    · rename_i s1 v1 h1
      obtain ⟨g1, g2, a, rfl⟩ := seeService_blank hk hd hc h1
      obtain ⟨w, rfl, hw⟩ := seeMany_blank hk k g1 g2 h
      exact ⟨(a.id, none) :: w, by simp, by simpa using hw⟩

theorem seeRun_blank {c : QCfg T} (hk : c.kind = .loss) {s s' : QS T} {v v' : Seen T} {op : QOp T} (hd : s.data = [])
    (hd' : s'.data = []) (hc : s.collectData = false) (h : seeRun c s v op = .ok (s', v')) :
    ∃ w, v' = v ++ w ∧ ∀ p ∈ w, p.2 = none := by
  cases op with
  | next =>
    simp only [seeRun, seeNext] at h
    split at h
    · obtain ⟨a, deps, l, -, -, rfl, h4⟩ := seeDepart_spec hk h
      refine ⟨_, rfl, ?_⟩
      rw [hd'] at h4 ⊢
      rcases h4 with ⟨b, rest, -, -, rfl⟩ | ⟨-, rfl⟩ <;> simp [Data.last]
    · split at h
      · split at h
        · obtain ⟨a, arr, n, m, -, -, ⟨-, rfl⟩ | ⟨-, rfl⟩⟩ := seeArrive_spec hk h
          · exact ⟨_, rfl, by simp [hc, hd, hd', Data.last]⟩
          · exact ⟨_, rfl, by simp [hd', Data.last]⟩
        · split at h
          · simp at h
          · simp only [Except.ok.injEq, Prod.mk.injEq] at h
            exact ⟨[], by simp [h.2]⟩
      · simp only [Except.ok.injEq, Prod.mk.injEq] at h
        exact ⟨[], by simp [h.2]⟩
  | setServers n =>
    simp only [seeRun] at h
    split at h
    · simp at h
    · simp only [Except.ok.injEq, Prod.mk.injEq] at h
      rw [← h.2]
      have go : ∀ new, ∃ w, (match agentsToQueue new s.numServers s.queue.length with
          | none => v
          | some k =>
            match seeMany c k s v with
            | .error _ => v
            | .ok (_, v) => v) = v ++ w ∧ ∀ p ∈ w, p.2 = none := by
        intro new
        split
        · exact ⟨[], by simp⟩
        · split
          · exact ⟨[], by simp⟩
          · rename_i h2; exact seeMany_blank hk _ hd hc h2
      unfold seeServers
      split
      · exact ⟨[], by simp⟩
      · simp only
        split
        · exact ⟨[], by simp⟩
        · exact go _
      · exact go _
  | _ =>
    simp only [seeRun] at h
    split at h
    · simp at h
    · simp only [Except.ok.injEq, Prod.mk.injEq] at h
      exact ⟨[], by simp [h.2]⟩

/-- No data are collected. -/
def NoData : QOp T → Prop
  | .collect b => b = false
  | _ => True

theorem noData_stays {c : QCfg T} (hk : c.kind = .loss) {s : QS T} (h : Reach c false (fun _ op => NoData op) s) :
    s.data = [] ∧ s.collectData = false := by
  refine h.induct (P := fun s => s.data = [] ∧ s.collectData = false) (.inr hk) ⟨rfl, rfl⟩ ?_
  rintro s s' op hb ⟨h1, h2⟩ hok ho
  cases ho with
  | ev s' r _ h3 =>
    cases h3 with
    | idle _ _ h4 => rw [h4]; exact ⟨h1, h2⟩
    | dep a _ h4 _ =>
      obtain ⟨deps, -, -, ⟨b, rest, -, -, -, -, -, -, k7⟩ | ⟨-, -, -, -, -, k6⟩⟩ := h4.served
      · rw [h2] at k7; exact ⟨by simpa [h1] using k7, by rw [h4.collectData, h2]⟩
      · rw [h2] at k6; exact ⟨by simpa [h1] using k6, by rw [h4.collectData, h2]⟩
    | arr a rest _ _ _ h4 _ =>
      rcases h4.served with ⟨-, -, -, -, -, k6⟩ | ⟨-, -, -, -, -, k6⟩
      · rw [h2] at k6; exact ⟨by simpa [h1] using k6, by rw [h4.collectData, h2]⟩
      · rw [h2] at k6; exact ⟨by simpa [h1] using k6, by rw [h4.collectData, h2]⟩
    | block a rest _ _ _ _ h4 _ =>
      have k6 := h4.data
      rw [h2] at k6; exact ⟨by simpa [h1] using k6, by rw [h4.collectData, h2]⟩
  | srv n s' r h3 =>
    cases h3 with
    | typ => exact ⟨h1, h2⟩
    | val => exact ⟨h1, h2⟩
    | ok => simp [h1, h2]
  | delay t kb s' h3 => cases h3 <;> exact ⟨h1, h2⟩
  | collect b => exact ⟨h1, hok⟩
  | clearData => exact ⟨rfl, h2⟩
  | clear => rw [clear_simple c s (.inr hk)]; exact ⟨rfl, h2⟩
  | _ => exact ⟨h1, h2⟩

/-- C113: at an InfoQueue that does not collect data, `stats` only counts the times the agent is turned away. -/
theorem C113_no_data {c : QCfg T} (hk : c.kind = .loss) {s : QS T} {v : Seen T}
    (h : SReach c false (fun _ op => NoData op) s v) (x : Nat × Nat) (σ : Stat V) :
    σ.after M x v s.lost = { σ with losses := σ.losses + lostBy x s.lost } := by
  have hv : ∀ p ∈ v, p.2 = none := by
    induction h with
    | init => simp
    | step op h1 h2 h3 ih =>
      obtain ⟨g1, g2⟩ := noData_stays hk (h1.reach hk)
      obtain ⟨g3, -⟩ := noData_stays hk ((SReach.step op h1 h2 h3).reach hk)
      obtain ⟨w, rfl, hw⟩ := seeRun_blank hk g1 g3 g2 h3
      intro p hp
      rcases List.mem_append.mp hp with hp | hp
      · exact ih p hp
      · exact hw p hp
  unfold Stat.after lostBy
  have : ∀ (l : Seen T) (σ : Stat V), (∀ p ∈ l, p.2 = none) → l.foldl (fun σ p => σ.act M p.2) σ = σ := by
    intro l
    induction l with
    | nil => intros; rfl
    | cons p l ih =>
      intro σ hl
      rw [List.foldl_cons, hl p (by simp)]
      exact ih σ fun q hq => hl q (by simp [hq])
  rw [this _ _ fun p hp => hv p (List.mem_filter.mp hp).1]

/-! ## Example -/

/-- Run operations. -/
def seeOps (c : QCfg T) : QS T → Seen T → List (QOp T) → Option (QS T × Seen T)
  | s, v, [] => some (s, v)
  | s, v, op :: ops =>
    match seeRun c s v op with
    | .error _ => none
    | .ok (s', v') => seeOps c s' v' ops

theorem SReach.ofOps {c : QCfg T} {b : Bool} {ok : QS T → QOp T → Prop} (ops : List (QOp T)) (hok : ∀ s, ∀ op ∈ ops, ok s op)
    {s s' : QS T} {v v' : Seen T} (h : SReach c b ok s v) (hr : seeOps c s v ops = some (s', v')) : SReach c b ok s' v' := by
  induction ops generalizing s v with
  | nil => simp only [seeOps, Option.some.injEq, Prod.mk.injEq] at hr; rw [← hr.1, ← hr.2]; exact h
  | cons op ops ih =>
    simp only [seeOps] at hr
    split at hr
    · simp at hr
    · rename_i s1 v1 h1
      exact ih (fun s o ho => hok s o (by simp [ho])) (h.step op (hok s op (by simp)) h1) hr

/-- Whole numbers. -/
def clockMeter : Meter ℕ∞ ℤ ℤ where
  sub a b := (a.toNat : ℤ) - b.toNat
  pos d := decide (0 < d)
  add v d := v + d

/-- What agent `x` has in `stats` for the queue, and its rows. -/
def statOf (b : Bool) (ops : List (QOp ℕ∞)) (x : Nat × Nat) : Option (Stat ℤ × List (Row ℕ∞)) :=
  (seeOps (infoDemo 0 1 ⊤) (QS.init (infoDemo 0 1 ⊤) b) [] ops).map fun p =>
    ((⟨0, 0, 0⟩ : Stat ℤ).after clockMeter x p.2 p.1.lost, p.1.data.rows x)

/-- Arrivals at 2, 4, 6, 8 and service for 3: the first two agents are served. -/
def sixOps : List (QOp ℕ∞) := [.setActive, .next, .next, .next, .next, .next, .next]

/-- The second agent came at 4, waited 1 and left at 8, and `stats` says it waited -2, in 2 visits. -/
theorem C113_wrong_total : statOf true sixOps (0, 1) = some (⟨-2, 2, 0⟩, [⟨4, 5, 8, 1, 2⟩]) := by decide +kernel

/-- The first agent came at 2 and did not wait, and `stats` says it waited -2. -/
theorem C113_not_waited : statOf true sixOps (0, 0) = some (⟨-2, 0, 0⟩, [⟨2, 2, 5, 0, 1⟩]) := by decide +kernel

/-- The same without data: nothing is added. -/
example : statOf false sixOps (0, 1) = some (⟨0, 0, 0⟩, []) := by decide +kernel

theorem sixOps_ok : ∀ (s : QS ℕ∞), ∀ op ∈ sixOps, StatOk (infoDemo 0 1 ⊤) s op := by
  intro s op hop
  simp only [sixOps, List.mem_cons, List.not_mem_nil, or_false] at hop
  rcases hop with rfl | rfl | rfl | rfl | rfl | rfl | rfl <;> simp [StatOk, DataOk]

/-- The hypotheses of `C113_exact` hold in the example: the second agent has come, waited and gone. -/
example : ∃ s v, SReach (infoDemo 0 1 ⊤) true (StatOk (infoDemo 0 1 ⊤)) s v ∧ place s (0, 1) = .away ∧
    s.data.rows (0, 1) = [⟨4, 5, 8, 1, 2⟩] ∧ ((⟨0, 0, 0⟩ : Stat ℤ).after clockMeter (0, 1) v s.lost).wait = -2 := by
  have h : ∃ p, seeOps (infoDemo 0 1 ⊤) (QS.init (infoDemo 0 1 ⊤) true) [] sixOps = some p ∧ place p.1 (0, 1) = .away ∧
      p.1.data.rows (0, 1) = [⟨4, 5, 8, 1, 2⟩] ∧
      ((⟨0, 0, 0⟩ : Stat ℤ).after clockMeter (0, 1) p.2 p.1.lost).wait = -2 := by
    refine ⟨(seeOps (infoDemo 0 1 ⊤) (QS.init (infoDemo 0 1 ⊤) true) [] sixOps).get (by decide +kernel), by simp, ?_, ?_, ?_⟩ <;>
      decide +kernel
  obtain ⟨p, h1, h2⟩ := h
  exact ⟨p.1, p.2, SReach.init.ofOps sixOps sixOps_ok h1, h2⟩

example : Forward (infoDemo 0 1 ⊤) ∧ (infoDemo 0 1 ⊤).kind = .loss := ⟨⟨fun _ _ => le_self_add, fun _ _ => le_self_add⟩, rfl⟩

example (a b : ℕ∞) : clockMeter.sub a b = (fun t : ℕ∞ => (t.toNat : ℤ)) a - (fun t : ℕ∞ => (t.toNat : ℤ)) b := rfl

end Verif.InfoSpec
