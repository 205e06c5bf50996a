import Verif.Props.Net4
import Verif.AnyData
import Mathlib.Data.List.Chain

/-!
# Journeys of agents through a network (proof support)

With data collection on at every queue, the rows recorded for an agent are the visits of one journey: each visit begins
when the one before ended, at a queue that leaves the vertex where the one before led.
-/

set_option linter.unusedSectionVars false
set_option linter.unusedSimpArgs false
set_option linter.unusedVariables false

namespace Verif

open NetSpec

variable {T R : Type*} [LinearOrder T] [OrderTop T] [Zero T] [LinearOrder R] [Add R]

/-- A finished visit: `arrival <= start <= departure`. -/
def Whole (r : Row T) : Prop := r.arr ≤ r.start ∧ r.start ≤ r.dep

/-- Visit `q` follows visit `p` (a visit is the number of a queue and the row recorded there): `p` is finished, `q`
begins when `p` ends, and the queue of `q` leaves the vertex that the queue of `p` leads to. -/
def Follows (N : NetCfg T R) (p q : Nat × Row T) : Prop :=
  Whole p.2 ∧ p.2.dep = q.2.arr ∧ q.1 ∈ N.outEdges (N.qc p.1).edge.tgt

/-- The visits `V` are the journey that the network has recorded for agent `x`: the rows of each queue are the visits
there in order, the first is at the queue that created the agent, and each one follows the one before. -/
structure Journey (N : NetCfg T R) (qs : Nat → QS T) (x : Nat × Nat) (V : List (Nat × Row T)) : Prop where
  rows : ∀ k < N.nE, (qs k).data.rows x = (V.filter fun p => p.1 = k).map (·.2)
  lt : ∀ p ∈ V, p.1 < N.nE
  first : ∀ p, V.head? = some p → p.1 = x.1
  chain : V.IsChain (Follows N)

/-- An agent with the visits `V` may come to queue `k` at time `t`. -/
def Comes (N : NetCfg T R) (x : Nat × Nat) (V : List (Nat × Row T)) (k : Nat) (t : T) : Prop :=
  (V = [] → k = x.1) ∧ ∀ p, V.getLast? = some p → Whole p.2 ∧ p.2.dep = t ∧ k ∈ N.outEdges (N.qc p.1).edge.tgt

/-- The visit of an agent that is lost at a LossQueue or a ResourceQueue, leaves through a NullQueue, or leaves its
resource at a ResourceQueue. -/
def Ended (N : NetCfg T R) (p : Nat × Row T) : Prop :=
  (((N.qc p.1).kind = .loss ∨ (N.qc p.1).kind = .null ∨ (N.qc p.1).kind = .resource) ∧ p.2.start = 0 ∧ p.2.dep = 0) ∨
  ((N.qc p.1).kind = .resource ∧ p.2.start = p.2.arr ∧ p.2.dep = p.2.arr)

structure Trip (N : NetCfg T R) (qs : Nat → QS T) (x : Nat × Nat) (V : List (Nat × Row T)) : Prop
    extends Journey N qs x V where
  sched : ∀ k < N.nE, ∀ a ∈ agents (qs k).arrivals, a.id = x → Comes N x V k a.time
  wait : ∀ k < N.nE, x ∈ (qs k).queue.map (·.id) →
    ∃ V0 r, V = V0 ++ [(k, r)] ∧ r.arr ≤ (qs k).currentT
  serv : ∀ k < N.nE, x ∈ (agents (qs k).departures).map (·.id) →
    ∃ V0 r, V = V0 ++ [(k, r)] ∧ r.arr ≤ r.start ∧ r.start ≤ (qs k).currentT
  gone : x ∉ everyone N qs → ∀ p, V.getLast? = some p → Ended N p

/-- From `s` to `s'` nothing changes for agent `y`. -/
structure SameFor (s s' : QS T) (y : Nat × Nat) : Prop where
  rows : s'.data.rows y = s.data.rows y
  arr : ∀ a ∈ agents s'.arrivals, a.id = y → a ∈ agents s.arrivals
  queue : y ∈ s'.queue.map (·.id) → y ∈ s.queue.map (·.id)
  serv : y ∈ (agents s'.departures).map (·.id) → y ∈ (agents s.departures).map (·.id)
  cur : s.currentT ≤ s'.currentT
  pres : y ∈ presentIds s → y ∈ presentIds s'

variable {N : NetCfg T R} {qs : Nat → QS T} {x y : Nat × Nat} {V : List (Nat × Row T)} {k : Nat} {s' : QS T}

theorem Journey.keep (h : Journey N qs y V) (hr : s'.data.rows y = (qs k).data.rows y) :
    Journey N (Function.update qs k s') y V := by
  refine ⟨fun j hj => ?_, h.lt, h.first, h.chain⟩
  by_cases hjk : j = k
  · subst hjk; rw [Function.update_self, hr]; exact h.rows j hj
  · rw [Function.update_of_ne hjk]; exact h.rows j hj

theorem Trip.keep (h : Trip N qs y V) (hs : SameFor (qs k) s' y) : Trip N (Function.update qs k s') y V := by
  refine ⟨h.toJourney.keep hs.rows, fun j hj => ?_, fun j hj => ?_, fun j hj => ?_, fun hno => h.gone fun hm => hno ?_⟩
  rotate_right
  · obtain ⟨j, hj, hm⟩ := mem_everyone.mp hm
    refine mem_everyone.mpr ⟨j, hj, ?_⟩
    by_cases hjk : j = k
    · subst hjk; rw [Function.update_self]; exact hs.pres hm
    · rw [Function.update_of_ne hjk]; exact hm
  all_goals by_cases hjk : j = k
  · subst hjk; rw [Function.update_self]
    exact fun a ha hid => h.sched j hj a (hs.arr a ha hid) hid
  · rw [Function.update_of_ne hjk]; exact h.sched j hj
  · subst hjk; rw [Function.update_self]
    intro hm
    obtain ⟨V0, r, h1, h2⟩ := h.wait j hj (hs.queue hm)
    exact ⟨V0, r, h1, h2.trans hs.cur⟩
  · rw [Function.update_of_ne hjk]; exact h.wait j hj
  · subst hjk; rw [Function.update_self]
    intro hm
    obtain ⟨V0, r, h1, h2, h3⟩ := h.serv j hj (hs.serv hm)
    exact ⟨V0, r, h1, h2, h3.trans hs.cur⟩
  · rw [Function.update_of_ne hjk]; exact h.serv j hj

/-- A new visit. -/
theorem Journey.snoc (h : Journey N qs x V) (hk : k < N.nE) {r : Row T} (hc : Comes N x V k r.arr)
    (hr : s'.data.rows x = (qs k).data.rows x ++ [r]) :
    Journey N (Function.update qs k s') x (V ++ [(k, r)]) := by
  refine ⟨fun j hj => ?_, ?_, ?_, ?_⟩
  · by_cases hjk : j = k
    · subst hjk; rw [Function.update_self, hr, h.rows j hj]; simp
    · rw [Function.update_of_ne hjk, h.rows j hj]
      have : ¬ k = j := fun e => hjk e.symm
      simp [this]
  · intro p hp
    rcases List.mem_append.mp hp with hp | hp
    · exact h.lt p hp
    · simp at hp; rw [hp]; exact hk
  · intro p hp
    cases V with
    | nil => simp at hp; rw [← hp]; exact hc.1 rfl
    | cons q V => simp at hp; exact h.first p (by simp [hp])
  · rw [List.isChain_append]
    refine ⟨h.chain, List.isChain_singleton _, ?_⟩
    intro p hp q hq
    simp at hq
    subst hq
    obtain ⟨h1, h2, h3⟩ := hc.2 p hp
    exact ⟨h1, h2, h3⟩

/-- The last visit gets a start or an end. -/
theorem Journey.modify {V0 : List (Nat × Row T)} {r r' : Row T} (h : Journey N qs x (V0 ++ [(k, r)]))
    (hr : s'.data.rows x = modLast (fun _ => r') ((qs k).data.rows x)) (ha : r'.arr = r.arr) :
    Journey N (Function.update qs k s') x (V0 ++ [(k, r')]) := by
  refine ⟨fun j hj => ?_, ?_, ?_, ?_⟩
  · by_cases hjk : j = k
    · subst hjk
      rw [Function.update_self, hr, h.rows j hj]
      simp only [List.filter_append, List.map_append]
      simp only [decide_true, List.filter_cons_of_pos, List.filter_nil, List.map_cons, List.map_nil]
      rw [modLast_snoc]
    · rw [Function.update_of_ne hjk, h.rows j hj]
      have : ¬ k = j := fun e => hjk e.symm
      simp [this]
  · intro p hp
    rcases List.mem_append.mp hp with hp | hp
    · exact h.lt p (List.mem_append.mpr (.inl hp))
    · simp at hp; rw [hp]; exact h.lt (k, r) (by simp)
  · intro p hp
    cases V0 with
    | nil => simp at hp; rw [← hp]; exact h.first (k, r) (by simp)
    | cons q V0 => simp at hp; exact h.first p (by simp [hp])
  · have hc := h.chain
    rw [List.isChain_append] at hc ⊢
    refine ⟨hc.1, List.isChain_singleton _, ?_⟩
    intro p hp q hq
    simp at hq
    subst hq
    obtain ⟨h1, h2, h3⟩ := hc.2.2 p hp (k, r) (by simp)
    exact ⟨h1, by rw [h2, ha], h3⟩

theorem modLast_congr {α : Type*} {f g : α → α} {l : List α} {a : α} (h : l.getLast? = some a) (hfg : f a = g a) :
    modLast f l = modLast g l := by
  obtain ⟨l', rfl⟩ : ∃ l', l = l' ++ [a] := by
    rw [List.getLast?_eq_some_iff] at h; exact h
  rw [modLast_snoc, modLast_snoc, hfg]

/-- The last visit as a row of its queue. -/
theorem Journey.modify' {V0 : List (Nat × Row T)} {r : Row T} (h : Journey N qs x (V0 ++ [(k, r)]))
    (f : Row T → Row T) (hr : s'.data.rows x = modLast f ((qs k).data.rows x)) (ha : (f r).arr = r.arr) :
    Journey N (Function.update qs k s') x (V0 ++ [(k, f r)]) := by
  refine h.modify ?_ ha
  have hk : k < N.nE := h.lt (k, r) (by simp)
  rw [hr]
  refine modLast_congr (a := r) ?_ rfl
  rw [h.rows k hk]
  simp

/-- Where an agent is, it is only there. -/
theorem elsewhere (h : (everyone N qs).Nodup) (hk : k < N.nE) (hx : x ∈ presentIds (qs k)) {j : Nat} (hj : j < N.nE)
    (hjk : j ≠ k) : x ∉ presentIds (qs j) := by
  intro hm
  have h1 : (everyone N qs).count x ≤ 1 := List.nodup_iff_count_le_one.mp h x
  rw [everyone_count] at h1
  have h2 := sum_update (fun j => (presentIds (qs j)).count x) N.nE k 0 hk
  have h3 : (presentIds (qs j)).count x ≤
      ((List.range N.nE).map (Function.update (fun j => (presentIds (qs j)).count x) k 0)).sum := by
    refine List.single_le_sum (fun _ _ => Nat.zero_le _) _ ?_
    refine List.mem_map.mpr ⟨j, List.mem_range.mpr hj, ?_⟩
    rw [Function.update_of_ne hjk]
  have h4 := List.count_pos_iff.mpr hx
  have h5 := List.count_pos_iff.mpr hm
  omega

theorem here_nodup (h : (everyone N qs).Nodup) (hk : k < N.nE) : (presentIds (qs k)).Nodup := by
  rw [List.nodup_iff_count_le_one]
  intro x
  have h1 : (everyone N qs).count x ≤ 1 := List.nodup_iff_count_le_one.mp h x
  rw [everyone_count] at h1
  refine le_trans ?_ h1
  exact List.single_le_sum (fun _ _ => Nat.zero_le _) _ (List.mem_map.mpr ⟨k, List.mem_range.mpr hk, rfl⟩)

theorem not_mem_present {s : QS T} : x ∉ presentIds s ↔ x ∉ (agents s.arrivals).map (·.id) ∧
    x ∉ s.queue.map (·.id) ∧ x ∉ (agents s.departures).map (·.id) := by
  simp only [presentIds, List.mem_append, not_or]

/-- An agent that is at queue `k` only, or nowhere. -/
theorem Trip.at {V : List (Nat × Row T)} (hJ : Journey N (Function.update qs k s') x V)
    (hel : ∀ j < N.nE, j ≠ k → x ∉ presentIds (qs j))
    (h1 : ∀ a ∈ agents s'.arrivals, a.id = x → Comes N x V k a.time)
    (h2 : x ∈ s'.queue.map (·.id) → ∃ V0 r, V = V0 ++ [(k, r)] ∧ r.arr ≤ s'.currentT)
    (h3 : x ∈ (agents s'.departures).map (·.id) →
      ∃ V0 r, V = V0 ++ [(k, r)] ∧ r.arr ≤ r.start ∧ r.start ≤ s'.currentT)
    (hk : k < N.nE) (h4 : x ∉ presentIds s' → ∀ p, V.getLast? = some p → Ended N p) :
    Trip N (Function.update qs k s') x V := by
  refine ⟨hJ, fun j hj => ?_, fun j hj => ?_, fun j hj => ?_, fun hno => h4 fun hm => hno ?_⟩
  rotate_right
  · exact mem_everyone.mpr ⟨k, hk, by rw [Function.update_self]; exact hm⟩
  all_goals by_cases hjk : j = k
  · subst hjk; rw [Function.update_self]; exact h1
  · rw [Function.update_of_ne hjk]
    intro a ha hid
    exact absurd (List.mem_map.mpr ⟨a, ha, hid⟩) (not_mem_present.mp (hel j hj hjk)).1
  · subst hjk; rw [Function.update_self]; exact h2
  · rw [Function.update_of_ne hjk]
    exact fun hm => absurd hm (not_mem_present.mp (hel j hj hjk)).2.1
  · subst hjk; rw [Function.update_self]; exact h3
  · rw [Function.update_of_ne hjk]
    exact fun hm => absurd hm (not_mem_present.mp (hel j hj hjk)).2.2

/-- The invariant: collection is on, agents yet to be created have no rows, and every agent has a journey. -/
structure Trips (N : NetCfg T R) (qs : Nat → QS T) : Prop where
  on : ∀ k < N.nE, (qs k).collectData = true
  fresh : ∀ y : Nat × Nat, y.1 < N.nE → (qs y.1).oArrivals ≤ y.2 → ∀ j < N.nE, (qs j).data.rows y = []
  trip : ∀ y, ∃ V, Trip N qs y V

theorem Trips.on_update (h : Trips N qs) (hs : s'.collectData = (qs k).collectData) :
    ∀ j < N.nE, (Function.update qs k s' j).collectData = true := by
  intro j hj
  by_cases hjk : j = k
  · subst hjk; rw [Function.update_self, hs]; exact h.on j hj
  · rw [Function.update_of_ne hjk]; exact h.on j hj

theorem Trips.fresh_update (h : Trips N qs) (hk : k < N.nE) (ho : (qs k).oArrivals ≤ s'.oArrivals)
    (hd : ∀ y : Nat × Nat, s'.data.rows y = (qs k).data.rows y ∨ (y.1 < N.nE → y.2 < (qs y.1).oArrivals)) :
    ∀ y : Nat × Nat, y.1 < N.nE → (Function.update qs k s' y.1).oArrivals ≤ y.2 →
      ∀ j < N.nE, (Function.update qs k s' j).data.rows y = [] := by
  intro y hy hle j hj
  have hle' : (qs y.1).oArrivals ≤ y.2 := by
    by_cases hyk : y.1 = k
    · rw [hyk, Function.update_self] at hle; rw [hyk]; omega
    · rwa [Function.update_of_ne hyk] at hle
  by_cases hjk : j = k
  · subst hjk
    rw [Function.update_self]
    rcases hd y with h1 | h1
    · rw [h1]; exact h.fresh y hy hle' j hj
    · have := h1 hy; omega
  · rw [Function.update_of_ne hjk]; exact h.fresh y hy hle' j hj

/-- Nothing changes for anybody. -/
theorem Trips.same (h : Trips N qs) (hk : k < N.nE) (hs : ∀ y, SameFor (qs k) s' y)
    (ho : s'.oArrivals = (qs k).oArrivals) (hc : s'.collectData = (qs k).collectData) :
    Trips N (Function.update qs k s') := by
  refine ⟨h.on_update hc, h.fresh_update hk ho.ge fun y => .inl (hs y).rows, fun y => ?_⟩
  obtain ⟨V, hV⟩ := h.trip y
  exact ⟨V, hV.keep (hs y)⟩

theorem ExtSpec.ids (hN : N.OkA) (hk : k < N.nE) {s s' : QS T} {t : T} {rest : List (Slot T)}
    (he : ExtSpec (N.qc k) s s' t rest) : ∃ ext : List (Agent T), (∀ b ∈ ext, b.id = (k, s.oArrivals)) ∧
    (agents s'.arrivals).Perm (ext ++ agents rest) ∧ s'.oArrivals = s.oArrivals + ext.length := by
  obtain ⟨ext, e1, e2, e3, -⟩ := he
  refine ⟨ext, ?_, e2, e3⟩
  intro b hb
  have := hN.idx k hk
  generalize s'.nextCt = ν, s'.active = act, s'.arrCalls = n at e1
  cases e1 <;> simp_all

/-- An arrival event: agent `a` is admitted or leaves and gets a row; possibly an agent is created. -/
theorem Trips.admit (h : Trips N qs) (hi : Ids N qs) (hk : k < N.nE) {a : Agent T} {rest : List (Slot T)}
    {row : Row T} (hp : (agents (qs k).arrivals).Perm (a :: agents rest))
    (he : ∃ ext : List (Agent T), (∀ b ∈ ext, b.id = (k, (qs k).oArrivals)) ∧
      (agents s'.arrivals).Perm (ext ++ agents rest) ∧ s'.oArrivals = (qs k).oArrivals + ext.length)
    (hcur : s'.currentT = a.time) (hle : (qs k).currentT ≤ a.time)
    (hrow : row.arr = a.time) (hd : s'.data.rows a.id = (qs k).data.rows a.id ++ [row])
    (hd' : ∀ y ≠ a.id, s'.data.rows y = (qs k).data.rows y) (hc : s'.collectData = (qs k).collectData)
    (hpl : (s'.queue = (qs k).queue ∧
        ((agents s'.departures).map (·.id)).Perm (a.id :: (agents (qs k).departures).map (·.id)) ∧
        row.start = a.time) ∨
      (s'.queue.map (·.id) = (qs k).queue.map (·.id) ++ [a.id] ∧ s'.departures = (qs k).departures) ∨
      (s'.queue = (qs k).queue ∧ s'.departures = (qs k).departures ∧ Ended N (k, row))) :
    Trips N (Function.update qs k s') := by
  obtain ⟨ext, hext, e2, e3⟩ := he
  have hmem : a ∈ agents (qs k).arrivals := hp.mem_iff.mpr (by simp)
  have hapres : a.id ∈ presentIds (qs k) := by
    simp only [presentIds, List.mem_append]; exact .inl (List.mem_map.mpr ⟨a, hmem, rfl⟩)
  have hall : a.id ∈ everyone N qs := mem_everyone.mpr ⟨k, hk, hapres⟩
  have hmade := hi.made _ hall
  have hnd := here_nodup hi.nodup hk
  have hpres : (presentIds (qs k)).Perm (a.id :: ((agents rest).map (·.id) ++
      ((qs k).queue.map (·.id) ++ (agents (qs k).departures).map (·.id)))) := by
    unfold presentIds
    have := (hp.map (fun x : Agent T => x.id)).append_right
      ((qs k).queue.map (·.id) ++ (agents (qs k).departures).map (·.id))
    simpa using this
  have hnd' := (List.nodup_cons.mp (hpres.nodup_iff.mp hnd)).1
  simp only [List.mem_append, not_or] at hnd'
  obtain ⟨na, nq, nd⟩ := hnd'
  have harr : ∀ b ∈ agents s'.arrivals, b ∈ ext ∨ b ∈ agents rest := by
    intro b hb; exact List.mem_append.mp (e2.mem_iff.mp hb)
  refine ⟨h.on_update hc, h.fresh_update hk (by omega) fun y => ?_, fun y => ?_⟩
  · by_cases hy : y = a.id
    · exact .inr fun _ => by rw [hy]; exact hmade.2
    · exact .inl (hd' y hy)
  · obtain ⟨V, hV⟩ := h.trip y
    by_cases hy : y = a.id
    · subst hy
      have hcomes := hV.sched k hk a hmem rfl
      refine ⟨V ++ [(k, row)], Trip.at (hV.toJourney.snoc hk (by rw [hrow]; exact hcomes) hd)
        (fun j hj hjk => elsewhere hi.nodup hk hapres hj hjk) ?_ ?_ ?_ hk ?_⟩
      · intro b hb hid
        rcases harr b hb with hb | hb
        · have h1 := hext b hb
          rw [hid] at h1
          have h2 := hmade.2
          rw [h1] at h2
          exact absurd h2 (lt_irrefl _)
        · exact absurd (List.mem_map.mpr ⟨b, hb, hid⟩) na
      · intro _
        exact ⟨V, row, rfl, by rw [hrow, hcur]⟩
      · intro hm
        rcases hpl with ⟨-, -, p3⟩ | ⟨-, p2⟩ | ⟨-, p2, -⟩
        · exact ⟨V, row, rfl, by rw [hrow, p3], by rw [p3, hcur]⟩
        · rw [p2] at hm; exact absurd hm nd
        · rw [p2] at hm; exact absurd hm nd
      · intro hno p hp
        obtain ⟨-, n2, n3⟩ := not_mem_present.mp hno
        simp at hp
        subst hp
        rcases hpl with ⟨-, p2, -⟩ | ⟨p1, -⟩ | ⟨-, -, p3⟩
        · exact absurd (p2.mem_iff.mpr (by simp)) n3
        · exact absurd (by rw [p1]; simp) n2
        · exact p3
    · have hq : y ∈ s'.queue.map (·.id) → y ∈ (qs k).queue.map (·.id) := by
        rcases hpl with ⟨p1, -, -⟩ | ⟨p1, -⟩ | ⟨p1, -, -⟩ <;> rw [p1]
        · exact id
        · simp only [List.mem_append, List.mem_singleton]
          exact fun hh => hh.resolve_right hy
        · exact id
      have hdep : y ∈ (agents s'.departures).map (·.id) → y ∈ (agents (qs k).departures).map (·.id) := by
        rcases hpl with ⟨-, p2, -⟩ | ⟨-, p2⟩ | ⟨-, p2, -⟩
        · intro hm
          exact (List.mem_cons.mp (p2.mem_iff.mp hm)).resolve_left hy
        · rw [p2]; exact id
        · rw [p2]; exact id
      by_cases hnew : y = (k, (qs k).oArrivals)
      · have hno : ∀ j < N.nE, y ∉ presentIds (qs j) := by
          intro j hj hm
          have := (hi.made y (mem_everyone.mpr ⟨j, hj, hm⟩)).2
          rw [hnew] at this
          exact absurd this (lt_irrefl _)
        have hJ : Journey N qs y [] := by
          refine ⟨fun j hj => ?_, by simp, by simp, .nil⟩
          rw [h.fresh y (by rw [hnew]; exact hk) (by rw [hnew]) j hj]; rfl
        refine ⟨[], Trip.at (hJ.keep (hd' y hy)) (fun j hj _ => hno j hj) ?_ ?_ ?_ hk (by simp)⟩
        · intro b _ _
          exact ⟨fun _ => by rw [hnew], by simp⟩
        · exact fun hm => absurd (hq hm) (not_mem_present.mp (hno k hk)).2.1
        · exact fun hm => absurd (hdep hm) (not_mem_present.mp (hno k hk)).2.2
      · refine ⟨V, hV.keep ⟨hd' y hy, ?_, hq, hdep, by rw [hcur]; exact hle, ?_⟩⟩
        · intro b hb hid
          rcases harr b hb with hb | hb
          · exact absurd (hid ▸ hext b hb) hnew
          · exact hp.mem_iff.mpr (List.mem_cons_of_mem _ hb)
        · intro hm
          have hm := (List.mem_cons.mp (hpres.mem_iff.mp hm)).resolve_left hy
          simp only [presentIds, List.mem_append] at hm ⊢
          rcases hm with hm | hm | hm
          · left
            obtain ⟨b, hb, rfl⟩ := List.mem_map.mp hm
            exact List.mem_map.mpr ⟨b, e2.mem_iff.mpr (List.mem_append.mpr (.inr hb)), rfl⟩
          · right; left
            rcases hpl with ⟨p1, -, -⟩ | ⟨p1, -⟩ | ⟨p1, -, -⟩ <;> rw [p1]
            · exact hm
            · rw [List.mem_append]; exact .inl hm
            · exact hm
          · right; right
            rcases hpl with ⟨-, p2, -⟩ | ⟨-, p2⟩ | ⟨-, p2, -⟩
            · exact p2.mem_iff.mpr (List.mem_cons_of_mem _ hm)
            · rw [p2]; exact hm
            · rw [p2]; exact hm

/-- The event of a queue whose next event is an arrival. -/
theorem Trips.event (hN : N.OkA) (h : Trips N qs) (hi : Ids N qs) (hk : k < N.nE)
    (hle : (qs k).currentT ≤ headTime (qs k).arrivals) (he : EvA (N.qc k) (qs k) s' none)
    (hev : nextEvent (N.qc k) (qs k) = .ok (s', none)) :
    Trips N (Function.update qs k s') := by
  have hon := h.on k hk
  cases he with
  | simple _ he =>
    cases he with
    | idle _ _ e => rw [e]; simpa using h
    | arr a rest _ _ _ e _ =>
      rcases e.served with ⟨-, g2, -, g4, -, g6⟩ | ⟨-, g2, -, g4, -, g6⟩
      · rw [hon, if_pos rfl] at g6
        refine h.admit hi hk (row := ⟨a.time, a.time, 0, (qs k).queue.length, (qs k).numSystem + 1⟩) e.perm (e.ext.ids hN hk)
          e.currentT (by rw [e.time_eq]; exact hle) rfl ?_ ?_ e.collectData
          (.inl ⟨g2, by simpa using g4.map (fun x : Agent T => x.id), rfl⟩)
        · rw [g6, Data.rows_modify, if_pos rfl, Data.rows_append, if_pos rfl, modLast_snoc]
        · intro y hy
          rw [g6, Data.rows_modify, if_neg hy, Data.rows_append, if_neg hy]
      · rw [hon, if_pos rfl] at g6
        refine h.admit hi hk (row := ⟨a.time, 0, 0, (qs k).queue.length + 1, (qs k).numSystem + 1⟩) e.perm (e.ext.ids hN hk)
          e.currentT (by rw [e.time_eq]; exact hle) rfl ?_ ?_ e.collectData (.inr (.inl ⟨by rw [g2]; simp, g4⟩))
        · rw [g6, Data.rows_append, if_pos rfl]
        · intro y hy
          rw [g6, Data.rows_append, if_neg hy]
    | block a rest _ _ hloss _ e _ =>
      have g6 := e.data
      rw [hon, if_pos rfl] at g6
      refine h.admit hi hk (row := ⟨a.time, 0, 0, (qs k).queue.length, (qs k).numSystem⟩) e.perm (e.ext.ids hN hk)
        e.currentT (by rw [e.time_eq]; exact hle) rfl ?_ ?_ e.collectData (.inr (.inr ⟨e.queue, e.departures, .inl ⟨.inl hloss, rfl, rfl⟩⟩))
      · rw [g6, Data.rows_append, if_pos rfl]
      · intro y hy
        rw [g6, Data.rows_append, if_neg hy]
  | resource hres he =>
    cases he with
    | idle _ _ e => rw [e]; simpa using h
    | arr a rest c1 c2 c3 c4 e =>
      rw [nextEvent_arr hres c1 c2 c3 e.head c4] at hev
      obtain ⟨f1, row, f2, f3, f4, f5, f6⟩ := arriveEvent_data hon e.head hev
      refine h.admit hi hk (row := row) e.perm (e.ext.ids hN hk) e.currentT (by rw [e.time_eq]; exact hle) f2 f4 f5
        (by rw [f1, hon]) ?_
      obtain ⟨kd, n, om, -, ⟨k', -, g2, -, g4, -⟩ | ⟨-, g2, -, -, g4, -⟩⟩ := e.served
      · rcases f6 with ⟨-, f6⟩ | ⟨f6, -⟩
        · exact .inl ⟨g2, by simpa using g4.map (fun x : Agent T => x.id), f6⟩
        · exact absurd g2 f6
      · exact .inr (.inl ⟨by rw [g2]; simp, g4⟩)
    | block a rest _ _ _ _ _ e =>
      have g6 := e.data
      rw [hon, if_pos rfl] at g6
      refine h.admit hi hk (row := ⟨a.time, 0, 0, (qs k).queue.length, (qs k).numSystem⟩) e.perm (e.ext.ids hN hk)
        e.currentT (by rw [e.time_eq]; exact hle) rfl ?_ ?_ e.collectData
        (.inr (.inr ⟨e.queue, e.departures, .inl ⟨.inr (.inr hres), rfl, rfl⟩⟩))
      · rw [g6, Data.rows_append, if_pos rfl]
      · intro y hy
        rw [g6, Data.rows_append, if_neg hy]
    | deposit a had c1 c2 c3 e _ _ _ _ _ =>
      rw [nextEvent_deposit hres c1 c2 e.head c3] at hev
      obtain ⟨f1, f2⟩ := depositEvent_data hon e.head hev
      refine h.admit hi hk (row := ⟨a.time, a.time, a.time, (qs k).queue.length, (qs k).numSystem⟩) e.perm
        ⟨[], by simp, .rfl, e.oArrivals⟩ e.currentT (by rw [e.time_eq]; exact hle) rfl ?_ ?_ (by rw [f1, hon])
        (.inr (.inr ⟨e.queue, e.departures, .inr ⟨hres, rfl, rfl⟩⟩))
      · rw [f2, Data.rows_append, if_pos rfl]
      · intro y hy
        rw [f2, Data.rows_append, if_neg hy]
    | full a had c1 c2 c3 c4 e _ _ _ _ _ =>
      rw [nextEvent_full hres c1 c2 e.head c3 c4] at hev
      obtain ⟨f1, f2⟩ := resourceBlock_data hon e.head hev
      refine h.admit hi hk (row := ⟨a.time, 0, 0, (qs k).queue.length, (qs k).numSystem⟩) e.perm
        ⟨[], by simp, .rfl, e.oArrivals⟩ e.currentT (by rw [e.time_eq]; exact hle) rfl ?_ ?_ (by rw [f1, hon])
        (.inr (.inr ⟨e.queue, e.departures, .inl ⟨.inr (.inr hres), rfl, rfl⟩⟩))
      · rw [f2, Data.rows_append, if_pos rfl]
      · intro y hy
        rw [f2, Data.rows_append, if_neg hy]

/-- Service begins for agent `b`, at queue `k`. -/
theorem Trip.begin (h : Trip N qs x V) (hi : (everyone N qs).Nodup) (hk : k < N.nE)
    (hx : x ∈ (qs k).queue.map (·.id)) {t : T} (ht : (qs k).currentT ≤ t) (hcur : s'.currentT = t)
    (hrows : s'.data.rows x = modLast (fun r => { r with start := t }) ((qs k).data.rows x))
    (ha : ∀ b ∈ agents s'.arrivals, b.id = x → b ∈ agents (qs k).arrivals)
    (hq : x ∉ s'.queue.map (·.id)) (hd : x ∈ (agents s'.departures).map (·.id)) :
    ∃ V', Trip N (Function.update qs k s') x V' := by
  obtain ⟨V0, r, rfl, hr⟩ := h.wait k hk hx
  have hpres : x ∈ presentIds (qs k) := by
    simp only [presentIds, List.mem_append]; exact .inr (.inl hx)
  refine ⟨V0 ++ [(k, { r with start := t })], Trip.at (h.toJourney.modify' _ hrows rfl)
    (fun j hj hjk => elsewhere hi hk hpres hj hjk) ?_ ?_ ?_ hk (fun hno => absurd hd (not_mem_present.mp hno).2.2)⟩
  · intro b hb hid
    have hnd := here_nodup hi hk
    unfold presentIds at hnd
    have := (List.disjoint_of_nodup_append hnd) (List.mem_map.mpr ⟨b, ha b hb hid, hid⟩)
    exact absurd (List.mem_append.mpr (.inl hx)) this
  · exact fun hm => absurd hm hq
  · intro _
    exact ⟨V0, _, rfl, hr.trans ht, by rw [hcur]⟩

/-- What a departure does with the ids and the rows: `deps` are the agents that stay in service. -/
theorem DepEffA.rows {c : QCfg T} {s s' : QS T} {a a' : Agent T} (h : DepEffA c s s' a a')
    (hon : s.collectData = true) : s'.collectData = true ∧ s'.arrivals = s.arrivals ∧ s'.currentT = a'.time ∧
    ∃ deps : List (Nat × Nat), ((agents s.departures).map (·.id)).Perm (a'.id :: deps) ∧
    ((∃ b rest, s.queue = b :: rest ∧ s'.queue = rest ∧
        ((agents s'.departures).map (·.id)).Perm (b.id :: deps) ∧
        s'.data = (s.data.modify a'.id fun r => { r with dep := a'.time }).modify b.id
          fun r => { r with start := a'.time }) ∨
      (s'.queue = s.queue ∧ ((agents s'.departures).map (·.id)).Perm deps ∧
        s'.data = s.data.modify a'.id fun r => { r with dep := a'.time })) := by
  obtain ⟨f1, f2⟩ := departEvent_data hon (nextEvent_some h.ev)
  have hid : a'.id = a.id := by rw [h.same]
  refine ⟨f1, ?_, by rw [h.cur, h.time], ?_⟩
  · cases h.out with
    | simple _ ho => cases ho with | dep _ _ e => exact e.arrivals
    | resource _ ho => cases ho with | dep _ _ _ e => exact e.arrivals
  · have key : ∃ deps : List (Nat × Nat), ((agents s.departures).map (·.id)).Perm (a'.id :: deps) ∧
        ((∃ b rest, s.queue = b :: rest ∧ s'.queue = rest ∧
          ((agents s'.departures).map (·.id)).Perm (b.id :: deps)) ∨
        (s'.queue = s.queue ∧ ((agents s'.departures).map (·.id)).Perm deps)) := by
      cases h.out with
      | simple _ ho =>
        cases ho with
        | dep _ _ e =>
          obtain ⟨deps, g1, -, g3⟩ := e.served
          refine ⟨(agents deps).map (·.id), by simpa using g1.map (fun x : Agent T => x.id), ?_⟩
          rcases g3 with ⟨b, rest, k1, -, k3, -, k5, -⟩ | ⟨-, k2, -, k4, -⟩
          · exact .inl ⟨b, rest, k1, k3, by simpa using k5.map (fun x : Agent T => x.id)⟩
          · exact .inr ⟨k2, by rw [k4]⟩
      | resource _ ho =>
        cases ho with
        | dep a0 _ _ e =>
          obtain ⟨deps, g1, -, g3⟩ := e.served
          have hid' : a'.id = a0.id := by rw [e.same]
          refine ⟨(agents deps).map (·.id), by rw [hid']; simpa using g1.map (fun x : Agent T => x.id), ?_⟩
          rcases g3 with ⟨b, rest, kd, n, om, k1, -, -, -, k3, k5, -⟩ | ⟨-, -, k2, k4, -⟩
          · exact .inl ⟨b, rest, k1, k3, by simpa using k5.map (fun x : Agent T => x.id)⟩
          · exact .inr ⟨k2, by rw [k4]⟩
    obtain ⟨deps, g1, g2⟩ := key
    refine ⟨deps, g1, ?_⟩
    rcases g2 with ⟨b, rest, k1, k2, k3⟩ | ⟨k1, k2⟩ <;> rcases f2 with ⟨e1, e2⟩ | ⟨b', rest', e1, e2, e3⟩
    · rw [k2, k1] at e1
      exact absurd (congrArg List.length e1) (by simp)
    · rw [k1] at e1
      simp only [List.cons.injEq] at e1
      obtain ⟨rfl, rfl⟩ := e1
      exact .inl ⟨b, rest, k1, k2, k3, e3⟩
    · exact .inr ⟨k1, k2, e2⟩
    · rw [k1, e1] at e2
      exact absurd (congrArg List.length e2) (by simp)

/-- A departure event: agent `a` is in nobody's hands. -/
theorem Trips.depart (h : Trips N qs) (hi : Ids N qs) (hk : k < N.nE) {a0 a : Agent T}
    (hle : (qs k).currentT ≤ a.time) (he : DepEffA (N.qc k) (qs k) s' a0 a) :
    (∀ y ≠ a.id, ∃ V, Trip N (Function.update qs k s') y V) ∧
    (∃ V0 r, Journey N (Function.update qs k s') a.id (V0 ++ [(k, r)]) ∧ Whole r ∧ r.dep = a.time) ∧
    a.id ∉ everyone N (Function.update qs k s') := by
  have hon := h.on k hk
  obtain ⟨hcol, harr, hcurT, deps, g1', g3⟩ := he.rows hon
  have hids := he.ids.1
  have hnd := here_nodup hi.nodup hk
  have hapres : a.id ∈ presentIds (qs k) := hids.mem_iff.mpr (by simp)
  have hgone : a.id ∉ presentIds s' := (List.nodup_cons.mp (hids.nodup_iff.mp hnd)).1
  have had : a.id ∈ (agents (qs k).departures).map (·.id) := g1'.mem_iff.mpr (by simp)
  -- the row of the departing agent
  have hrow : s'.data.rows a.id = modLast (fun r => { r with dep := a.time }) ((qs k).data.rows a.id) := by
    rcases g3 with ⟨b, rest, k1, k3, k5, k7⟩ | ⟨k2, k4, k6⟩
    · have hb : a.id ≠ b.id := by
        intro e
        refine hgone ?_
        simp only [presentIds, List.mem_append]
        exact .inr (.inr (k5.mem_iff.mpr (by rw [e]; exact List.mem_cons_self)))
      rw [k7, Data.rows_modify, if_neg hb, Data.rows_modify, if_pos rfl]
    · rw [k6, Data.rows_modify, if_pos rfl]
  refine ⟨fun y hy => ?_, ?_, ?_⟩
  · obtain ⟨V, hV⟩ := h.trip y
    have hcur : (qs k).currentT ≤ s'.currentT := by rw [hcurT]; exact hle
    have hpr : y ∈ presentIds (qs k) → y ∈ presentIds s' :=
      fun hm => (List.mem_cons.mp (hids.mem_iff.mp hm)).resolve_left hy
    have hA : ∀ b ∈ agents s'.arrivals, b.id = y → b ∈ agents (qs k).arrivals := by
      intro b hb _; rwa [harr] at hb
    rcases g3 with ⟨b, rest, k1, k3, k5, k7⟩ | ⟨k2, k4, k6⟩
    · by_cases hyb : y = b.id
      · subst hyb
        refine hV.begin hi.nodup hk (by rw [k1]; simp) hle hcurT ?_ hA ?_
          (k5.mem_iff.mpr List.mem_cons_self)
        · rw [k7, Data.rows_modify, if_pos rfl, Data.rows_modify, if_neg hy]
        · intro hm
          have := (List.nodup_append.mp (List.nodup_append.mp hnd).2.1).1
          rw [k1] at this
          rw [k3] at hm
          exact (List.nodup_cons.mp this).1 hm
      · refine ⟨V, hV.keep ⟨?_, hA, ?_, ?_, hcur, hpr⟩⟩
        · rw [k7, Data.rows_modify, if_neg hyb, Data.rows_modify, if_neg hy]
        · rw [k1, k3]; exact fun hm => List.mem_cons_of_mem _ hm
        · intro hm
          exact g1'.mem_iff.mpr (List.mem_cons_of_mem _ ((List.mem_cons.mp (k5.mem_iff.mp hm)).resolve_left hyb))
    · refine ⟨V, hV.keep ⟨?_, hA, ?_, ?_, hcur, hpr⟩⟩
      · rw [k6, Data.rows_modify, if_neg hy]
      · rw [k2]; exact id
      · intro hm; exact g1'.mem_iff.mpr (List.mem_cons_of_mem _ (k4.mem_iff.mp hm))
  · obtain ⟨V, hV⟩ := h.trip a.id
    obtain ⟨V0, r, rfl, r1, r2⟩ := hV.serv k hk had
    exact ⟨V0, _, hV.toJourney.modify' _ hrow rfl, ⟨r1, r2.trans hle⟩, rfl⟩
  · intro hm
    obtain ⟨j, hj, hm⟩ := mem_everyone.mp hm
    by_cases hjk : j = k
    · subst hjk; rw [Function.update_self] at hm; exact hgone hm
    · rw [Function.update_of_ne hjk] at hm
      exact elsewhere hi.nodup hk hapres hj hjk hm

/-- The agent that left queue `k` is scheduled at queue `e`. -/
theorem Trips.receive {e : Nat} {a : Agent T} {V0 : List (Nat × Row T)} {r : Row T}
    (h : ∀ y ≠ a.id, ∃ V, Trip N qs y V) (hJ : Journey N qs a.id (V0 ++ [(k, r)])) (hw : Whole r)
    (hr : r.dep = a.time) (hno : a.id ∉ everyone N qs) (he : e < N.nE)
    (hout : e ∈ N.outEdges (N.qc k).edge.tgt) (hp : (agents s'.arrivals).Perm (a :: agents (qs e).arrivals))
    (hq : s'.queue = (qs e).queue) (hd : s'.departures = (qs e).departures) (hdat : s'.data = (qs e).data)
    (hc : s'.currentT = (qs e).currentT) (y : Nat × Nat) : ∃ V, Trip N (Function.update qs e s') y V := by
  by_cases hy : y = a.id
  · subst hy
    have hno' : ∀ j < N.nE, a.id ∉ presentIds (qs j) := fun j hj hm => hno (mem_everyone.mpr ⟨j, hj, hm⟩)
    obtain ⟨n1, n2, n3⟩ := not_mem_present.mp (hno' e he)
    refine ⟨V0 ++ [(k, r)], Trip.at (hJ.keep (by rw [hdat])) (fun j hj _ => hno' j hj) ?_ ?_ ?_ he ?_⟩
    · intro b hb hid
      rcases List.mem_cons.mp (hp.mem_iff.mp hb) with rfl | hb
      · refine ⟨by simp, fun p hp => ?_⟩
        simp at hp
        subst hp
        exact ⟨hw, hr, hout⟩
      · exact absurd (List.mem_map.mpr ⟨b, hb, hid⟩) n1
    · rw [hq]; exact fun hm => absurd hm n2
    · rw [hd]; exact fun hm => absurd hm n3
    · exact fun hm => absurd (List.mem_map.mpr ⟨a, hp.mem_iff.mpr (by simp), rfl⟩) (not_mem_present.mp hm).1
  · obtain ⟨V, hV⟩ := h y hy
    refine ⟨V, hV.keep ⟨by rw [hdat], ?_, by rw [hq]; exact id, by rw [hd]; exact id, hc.ge, ?_⟩⟩
    · intro b hb hid
      refine (List.mem_cons.mp (hp.mem_iff.mp hb)).resolve_left ?_
      rintro rfl
      exact hy hid.symm
    · simp only [presentIds, hq, hd, List.mem_append]
      refine Or.imp_left fun hm => ?_
      obtain ⟨b, hb, rfl⟩ := List.mem_map.mp hm
      exact List.mem_map.mpr ⟨b, hp.mem_iff.mpr (List.mem_cons_of_mem _ hb), rfl⟩

/-- The agent that left queue `k` leaves the network through the NullQueue `e`. -/
theorem Trips.leave {e : Nat} {a : Agent T} {V0 : List (Nat × Row T)} {r row : Row T}
    (h : ∀ y ≠ a.id, ∃ V, Trip N qs y V) (hJ : Journey N qs a.id (V0 ++ [(k, r)])) (hw : Whole r)
    (hr : r.dep = a.time) (hno : a.id ∉ everyone N qs) (he : e < N.nE)
    (hout : e ∈ N.outEdges (N.qc k).edge.tgt) (hp : s'.arrivals = (qs e).arrivals)
    (hq : s'.queue = (qs e).queue) (hd : s'.departures = (qs e).departures) (hrow : row.arr = a.time)
    (hend : Ended N (e, row))
    (hdat : s'.data = (qs e).data.append a.id row)
    (hc : s'.currentT = (qs e).currentT) (y : Nat × Nat) : ∃ V, Trip N (Function.update qs e s') y V := by
  by_cases hy : y = a.id
  · subst hy
    have hno' : ∀ j < N.nE, a.id ∉ presentIds (qs j) := fun j hj hm => hno (mem_everyone.mpr ⟨j, hj, hm⟩)
    obtain ⟨n1, n2, n3⟩ := not_mem_present.mp (hno' e he)
    refine ⟨V0 ++ [(k, r)] ++ [(e, row)], Trip.at (hJ.snoc he ?_ ?_) (fun j hj _ => hno' j hj) ?_ ?_ ?_ he ?_⟩
    · refine ⟨by simp, fun p hp => ?_⟩
      simp at hp
      subst hp
      exact ⟨hw, by rw [hr, hrow], hout⟩
    · rw [hdat, Data.rows_append, if_pos rfl]
    · intro b hb hid
      rw [hp] at hb
      exact absurd (List.mem_map.mpr ⟨b, hb, hid⟩) n1
    · rw [hq]; exact fun hm => absurd hm n2
    · rw [hd]; exact fun hm => absurd hm n3
    · intro _ p hp
      simp at hp
      subst hp
      exact hend
  · obtain ⟨V, hV⟩ := h y hy
    refine ⟨V, hV.keep ⟨?_, by rw [hp]; exact fun b hb _ => hb, by rw [hq]; exact id, by rw [hd]; exact id, hc.ge,
      by simp only [presentIds, hq, hd, hp]; exact id⟩⟩
    rw [hdat, Data.rows_append, if_neg hy]

/-- An agent is created when a queue is activated. -/
theorem Trips.activate_one (hN : N.OkA) (h : Trips N qs) (hi : Ids N qs) (hk : k < N.nE) {b : Bool}
    (hg : QGoodA (N.qc k) b (qs k)) (hs : setActive (N.qc k) (qs k) = .ok s') : Trips N (Function.update qs k s') := by
  have hb := hg.base
  rcases hg with ⟨hsim, -⟩ | ⟨hnull, -⟩
  · cases ha : (qs k).active with
    | true =>
      have : s' = qs k := by unfold setActive at hs; rw [if_pos ha] at hs; simpa using hs.symm
      rw [this]; simpa using h
    | false =>
      obtain ⟨arr, ext, ν, act, calls, h1, h2, h3, h4⟩ :=
        setActive_spec (N.qc k) (qs k) hsim hb.okA hb.time ha
      rw [hs] at h4
      simp only [Except.ok.injEq] at h4
      have hext : ∀ b ∈ ext, b.id = (k, (qs k).oArrivals) := by
        intro b hb
        have := hN.idx k hk
        cases h1 <;> simp_all [newAgent]
      have e1 : s'.data = (qs k).data := by rw [h4]
      have e2 : s'.queue = (qs k).queue := by rw [h4]
      have e3 : s'.departures = (qs k).departures := by rw [h4]
      have e4 : s'.currentT = (qs k).currentT := by rw [h4]
      have e5 : s'.oArrivals = (qs k).oArrivals + ext.length := by rw [h4]
      have e6 : s'.arrivals = arr := by rw [h4]
      have e7 : s'.collectData = (qs k).collectData := by rw [h4]
      refine ⟨h.on_update e7, h.fresh_update hk (by omega) fun y => .inl (by rw [e1]), fun y => ?_⟩
      obtain ⟨V, hV⟩ := h.trip y
      by_cases hnew : y = (k, (qs k).oArrivals)
      · have hno : ∀ j < N.nE, y ∉ presentIds (qs j) := by
          intro j hj hm
          have := (hi.made y (mem_everyone.mpr ⟨j, hj, hm⟩)).2
          rw [hnew] at this
          exact absurd this (lt_irrefl _)
        have hJ : Journey N qs y [] := by
          refine ⟨fun j hj => ?_, by simp, by simp, .nil⟩
          rw [h.fresh y (by rw [hnew]; exact hk) (by rw [hnew]) j hj]; rfl
        refine ⟨[], Trip.at (hJ.keep (by rw [e1])) (fun j hj _ => hno j hj) ?_ ?_ ?_ hk (by simp)⟩
        · intro b _ _
          exact ⟨fun _ => by rw [hnew], by simp⟩
        · rw [e2]; exact fun hm => absurd hm (not_mem_present.mp (hno k hk)).2.1
        · rw [e3]; exact fun hm => absurd hm (not_mem_present.mp (hno k hk)).2.2
      · refine ⟨V, hV.keep ⟨by rw [e1], ?_, by rw [e2]; exact id, by rw [e3]; exact id, by rw [e4], ?_⟩⟩
        · intro b hb hid
          rw [e6] at hb
          rcases List.mem_append.mp (h3.mem_iff.mp hb) with hb | hb
          · exact absurd (hid ▸ hext b hb) hnew
          · exact hb
        · simp only [presentIds, e2, e3, e6, List.mem_append]
          refine Or.imp_left fun hm => ?_
          obtain ⟨b, hb, rfl⟩ := List.mem_map.mp hm
          exact List.mem_map.mpr ⟨b, h3.mem_iff.mpr (List.mem_append.mpr (.inr hb)), rfl⟩
  · have : s' = qs k ∨ s' = { qs k with active := true } := by
      unfold setActive addArrival at hs
      split at hs
      · left; simpa using hs.symm
      · right; simpa [hnull] using hs.symm
    rcases this with rfl | rfl
    · simpa using h
    · exact h.same hk (fun y => ⟨rfl, fun _ h _ => h, id, id, le_rfl, id⟩) rfl rfl

theorem Trips.activate (hN : N.OkA) {b : Nat → Bool} (l : List Nat) : ∀ {n n' : Net T R},
    (∀ k < N.nE, QGoodA (N.qc k) (b k) (n.qs k)) → Ids N n.qs → Trips N n.qs → Net.activate N l n = .ok n' →
    Trips N n'.qs := by
  induction l with
  | nil => intro n n' _ _ h hr; simp only [Net.activate, Except.ok.injEq] at hr; exact hr ▸ h
  | cons e es ih =>
    intro n n' hg hi h hr
    have hr0 := hr
    unfold Net.activate at hr
    split at hr
    · simp at hr
    · rename_i he
      have he : e < N.nE := by omega
      split at hr
      · simp at hr
      · rename_i s hs
        obtain ⟨s', g1, g2, -⟩ := activate_oneA (hN.fwd e he) (hg e he)
        rw [hs] at g1
        simp only [Except.ok.injEq] at g1
        subst g1
        have hone : Net.activate N [e] n = .ok ((n.setQ e s).setNum e s.numTotal) := by
          unfold Net.activate
          rw [if_neg (by omega), hs]
          rfl
        refine ih (n := (n.setQ e s).setNum e s.numTotal) ?_ (activate_ids hN [e] hg hi hone)
          (h.activate_one hN hi he (hg e he) hs) hr
        intro k hk
        show QGoodA (N.qc k) (b k) (Function.update n.qs e s k)
        by_cases hke : k = e
        · subst hke; rw [Function.update_self]; exact g2
        · rw [Function.update_of_ne hke]; exact hg k hk

/-- `set_num_servers`. -/
theorem Trips.servers (h : Trips N qs) (hi : Ids N qs) (hk : k < N.nE) {b : Bool} (hg : QGoodA (N.qc k) b (qs k))
    (m : PyNum) : Trips N (Function.update qs k (setNumServers (N.qc k) (qs k) m).1) := by
  have hon := h.on k hk
  have hnd := here_nodup hi.nodup hk
  rcases hg with ⟨hk0, hg⟩ | ⟨hnull, -⟩
  rcases kind_cases hk0 with hsim | hres
  · have hspec := setNumServers_spec (N.qc k) (qs k) m hsim (hg.base hsim).okD
    generalize (setNumServers (N.qc k) (qs k) m).1 = s' at *
    generalize (setNumServers (N.qc k) (qs k) m).2 = e at *
    have hrefl : Trips N (Function.update qs k (qs k)) := by simpa using h
    cases hspec with
    | typ _ => exact hrefl
    | val _ _ _ => exact hrefl
    | ok new j deps h1 h2 h3 h4 h5 =>
      rw [hon, if_pos rfl]
      have hqn : ((qs k).queue.map (·.id)).Nodup := (List.nodup_append.mp (List.nodup_append.mp hnd).2.1).1
      have hsplit : (qs k).queue.map (·.id) =
          ((qs k).queue.take j).map (·.id) ++ ((qs k).queue.drop j).map (·.id) := by
        rw [← List.map_append, List.take_append_drop]
      have hqn' := hqn
      rw [hsplit] at hqn'
      have htn := (List.nodup_append.mp hqn').1
      have hdis := List.disjoint_of_nodup_append hqn'
      have hdep : ∀ y, y ∈ (agents deps).map (·.id) →
          y ∈ ((qs k).queue.take j).map (·.id) ∨ y ∈ (agents (qs k).departures).map (·.id) := by
        intro y hy
        have := (h5.map (fun x : Agent T => x.id)).mem_iff.mp hy
        rw [List.map_append, startServ_ids, List.mem_append] at this
        exact this
      have hdep' : ∀ y, y ∈ ((qs k).queue.take j).map (·.id) ∨ y ∈ (agents (qs k).departures).map (·.id) →
          y ∈ (agents deps).map (·.id) := by
        intro y hy
        refine (h5.map (fun x : Agent T => x.id)).mem_iff.mpr ?_
        rw [List.map_append, startServ_ids, List.mem_append]
        exact hy
      refine ⟨h.on_update hon.symm, h.fresh_update hk le_rfl fun y => ?_, fun y => ?_⟩
      · by_cases hy : y ∈ ((qs k).queue.take j).map (·.id)
        · right
          intro _
          refine (hi.made y (mem_everyone.mpr ⟨k, hk, ?_⟩)).2
          simp only [presentIds, List.mem_append]
          exact .inr (.inl (by rw [hsplit]; exact List.mem_append.mpr (.inl hy)))
        · left
          rw [startData_rows _ _ _ htn, if_neg hy]
      · obtain ⟨V, hV⟩ := h.trip y
        by_cases hy : y ∈ ((qs k).queue.take j).map (·.id)
        · refine hV.begin hi.nodup hk (by rw [hsplit]; exact List.mem_append.mpr (.inl hy)) le_rfl rfl ?_
            (fun _ h _ => h) (hdis hy) (hdep' y (.inl hy))
          rw [startData_rows _ _ _ htn, if_pos hy]
        · refine ⟨V, hV.keep ⟨?_, fun _ h _ => h, ?_, ?_, le_rfl, ?_⟩⟩
          · rw [startData_rows _ _ _ htn, if_neg hy]
          · intro hm; rw [hsplit]; exact List.mem_append.mpr (.inr hm)
          · intro hm; exact (hdep y hm).resolve_left hy
          · simp only [presentIds, List.mem_append]
            rintro (hm | hm | hm)
            · exact .inl hm
            · rw [hsplit, List.mem_append] at hm
              exact .inr (.inl (hm.resolve_left hy))
            · exact .inr (.inr (hdep' y (.inr hm)))
  · have e : (setNumServers (N.qc k) (qs k) m).1 = qs k ∨ ∃ n om,
        (setNumServers (N.qc k) (qs k) m).1 = { qs k with numServers := n, overMax := om } := by
      unfold setNumServers
      rw [hres]
      cases m
      · right; exact ⟨_, _, rfl⟩
      · right; exact ⟨_, _, rfl⟩
      · left; rfl
    rcases e with e | ⟨n, om, e⟩
    · rw [e]; simpa using h
    · rw [e]
      exact h.same hk (fun y => ⟨rfl, fun _ h _ => h, id, id, le_rfl, id⟩) rfl rfl
  · have e : (setNumServers (N.qc k) (qs k) m).1 = qs k := by simp [setNumServers, hnull]
    rw [e]; simpa using h

/-- Ids after a departure and a handover. -/
theorem ids_moved {qs' : Nat → QS T} (hi : Ids N qs) (hp : (everyone N qs').Perm (everyone N qs))
    (ho : ∀ k, (qs' k).oArrivals = (qs k).oArrivals) : Ids N qs' :=
  ⟨hp.nodup_iff.mpr hi.nodup, fun x hx => by rw [ho]; exact hi.made x (hp.mem_iff.mp hx)⟩

theorem ArrEffA.headArr {c : QCfg T} {q q' : QS T} (h : ArrEffA c q q') (hc : q.currentT ≤ q.time) :
    q.currentT ≤ headTime q.arrivals := by
  rw [← h.core.cur, h.cur]; exact hc

/-- An event of the network. -/
theorem Trips.step (hN : N.OkA) {b : Nat → Bool} {n n' : Net T R} (hinv : NetInvA N b n) (hi : Ids N n.qs)
    (h : Trips N n.qs) (hout : StepOutA N n n') : Trips N n'.qs := by
  have hcl : ∀ k < N.nE, (N.qc k).kind ≠ .null → (n.qs k).currentT ≤ (n.qs k).time := by
    intro k hk hsk
    exact (hinv.clk k hk hsk).trans (hinv.tau k hk)
  cases hout with
  | empty h0 h1 => rw [h1]; exact h
  | idle k x hp h1 h2 h3 h4 h5 h6 h7 => rw [h7]; exact h
  | arrive k s' h1 h2 h3 h4 h5 h6 h7 h8 h9 h10 =>
    rw [h8]
    have hA : (n.qs k).currentT ≤ headTime (n.qs k).arrivals :=
      (hcl k h1 h3).trans (by rw [(hinv.good k h1).base.time]; exact min_le_left _ _)
    split at h7
    · have ho := h7.out
      have h' : Trips N (Function.update n.qs k (setInactive (n.qs k))) :=
        h.same h1 (fun y => ⟨rfl, fun _ h _ => h, id, id, le_rfl, id⟩) rfl rfl
      have hi' : Ids N (Function.update n.qs k (setInactive (n.qs k))) := by
        refine hi.congr (fun j => ?_) (fun j => ?_) <;> by_cases hjk : j = k
        · subst hjk; rw [Function.update_self]; rfl
        · rw [Function.update_of_ne hjk]
        · subst hjk; rw [Function.update_self]; rfl
        · rw [Function.update_of_ne hjk]
      have := h'.event hN hi' h1 (s' := s') (by rw [Function.update_self]; exact hA)
        (by rw [Function.update_self]; exact ho) (by rw [Function.update_self]; exact h7.ev)
      rwa [Function.update_idem] at this
    · exact h.event hN hi h1 hA h7.out h7.ev
  | block k e a s1 d h1 h2 h3 h4 h5 h6 h7 h8 h9 h10 h11 h12 h13 h14 h15 =>
    rw [h13]
    have h' : Trips N (Function.update n.qs e { n.qs e with numBlocked := (n.qs e).numBlocked + 1 }) :=
      h.same h3 (fun y => ⟨rfl, fun _ h _ => h, id, id, le_rfl, id⟩) rfl rfl
    have hke : Function.update n.qs e { n.qs e with numBlocked := (n.qs e).numBlocked + 1 } k = n.qs k :=
      Function.update_of_ne h4 _ _
    obtain ⟨g1, g2, g3, g4, g5, g6, g7, g8, g9, g10, g11⟩ := h12.same
    have hdat : s1.data = (n.qs k).data ∧ s1.collectData = (n.qs k).collectData := by
      have := h12.out
      cases this <;> exact ⟨rfl, rfl⟩
    refine h'.same h1 (fun y => ?_) (by rw [hke, g9]) (by rw [hke, hdat.2])
    rw [hke]
    refine ⟨by rw [hdat.1], by rw [g1]; exact fun _ h _ => h, by rw [g2]; exact id, ?_, g3.ge, ?_⟩
    all_goals
      obtain ⟨rest, d1, d2⟩ := h12.deps
      have e1 := (d1.map (fun x : Agent T => x.id))
      have e2 := (d2.map (fun x : Agent T => x.id))
      simp only [List.map_cons] at e1 e2
    · exact fun hm => e1.mem_iff.mpr (e2.mem_iff.mp hm)
    · simp only [presentIds, List.mem_append, g1, g2]
      exact Or.imp_right (Or.imp_right fun hm => e2.mem_iff.mpr (e1.mem_iff.mp hm))
  | move k e a0 a s1 s2 d h1 h2 h3 h4 h5 h6 h7 h8 h9 h10 h11 h12 h13 h14 =>
    rw [h12]
    have hout : e ∈ N.outEdges (N.qc k).edge.tgt := by
      obtain ⟨e', d', q1, q2⟩ := destination_okA hN hinv.probs h1 h4 a0
      rw [h8] at q1
      simp only [Except.ok.injEq, Prod.mk.injEq] at q1
      rw [q1.1]; exact q2
    have hle : (n.qs k).currentT ≤ a.time := by rw [h10.time]; exact hcl k h1 h4
    obtain ⟨p1, ⟨V0, r, p2, p3, p4⟩, p5⟩ := h.depart hi h1 hle h10
    have hids1 := h10.ids.1
    have hoar := h10.ids.2.2.1
    obtain ⟨hcol, -, -, deps, -, g3⟩ := h10.rows (h.on k h1)
    have hon1 : ∀ j < N.nE, (Function.update n.qs k s1 j).collectData = true :=
      h.on_update (by rw [hcol, h.on k h1])
    have hmadeA : a.id.2 < (n.qs a.id.1).oArrivals :=
      (hi.made a.id (mem_everyone.mpr ⟨k, h1, hids1.mem_iff.mpr (by simp)⟩)).2
    have hdk : ∀ y : Nat × Nat, s1.data.rows y = (n.qs k).data.rows y ∨ (y.1 < N.nE → y.2 < (n.qs y.1).oArrivals) := by
      intro y
      by_cases hy : y ∈ everyone N n.qs
      · exact .inr fun _ => (hi.made y hy).2
      · left
        have hyk : y ∉ presentIds (n.qs k) := fun hm => hy (mem_everyone.mpr ⟨k, h1, hm⟩)
        have hya : y ≠ a.id := by rintro rfl; exact hyk (hids1.mem_iff.mpr (by simp))
        rcases g3 with ⟨b, rest, k1, -, -, k7⟩ | ⟨-, -, k6⟩
        · have hyb : y ≠ b.id := by
            rintro rfl
            refine (not_mem_present.mp hyk).2.1 ?_
            rw [k1]; simp
          rw [k7, Data.rows_modify, if_neg hyb, Data.rows_modify, if_neg hya]
        · rw [k6, Data.rows_modify, if_neg hya]
    have hfr1 := h.fresh_update h1 hoar.ge hdk
    have ho1 : ∀ j, (Function.update n.qs k s1 j).oArrivals = (n.qs j).oArrivals := by
      intro j
      by_cases hjk : j = k
      · subst hjk; rw [Function.update_self, hoar]
      · rw [Function.update_of_ne hjk]
    set qs1 := Function.update n.qs k s1 with hqs1
    have hev1 : (everyone N n.qs).Perm (a.id :: everyone N qs1) := by
      have := everyone_update (qs := n.qs) (k := k) h1 (s' := s1) (A := [a.id]) (B := [])
        (by simpa using (List.perm_append_singleton _ _).trans hids1.symm)
      simpa using this.symm.trans (List.perm_append_singleton _ _)
    cases h11 with
    | queue g1 g2 =>
      obtain ⟨m, m1, m2, m3, m4, m5, m6, m7, m8, m9, m10, m11, m12, m13⟩ := g2.mid
      have hm : m.data = (qs1 e).data ∧ m.currentT = (qs1 e).currentT ∧ m.collectData = (qs1 e).collectData := by
        unfold addArrivalAgent at m1
        rw [if_neg g1] at m1
        split at m1
        · simp at m1
        · simp only [Except.ok.injEq] at m1
          rw [← m1]; exact ⟨rfl, rfl, rfl⟩
      have ht2 : Trips N (Function.update qs1 e m) := by
        refine ⟨?_, ?_, fun y => Trips.receive p1 p2 p3 p4 p5 h3 hout m8 m10 m9 hm.1 hm.2.1 y⟩
        · intro j hj
          by_cases hje : j = e
          · subst hje; rw [Function.update_self, hm.2.2]; exact hon1 j hj
          · rw [Function.update_of_ne hje]; exact hon1 j hj
        · intro y hy hyo j hj
          have hyo' : (qs1 y.1).oArrivals ≤ y.2 := by
            by_cases hye : y.1 = e
            · rw [hye, Function.update_self, m4] at hyo; rw [hye]; exact hyo
            · rwa [Function.update_of_ne hye] at hyo
          by_cases hje : j = e
          · subst hje; rw [Function.update_self, hm.1]; exact hfr1 y hy hyo' j hj
          · rw [Function.update_of_ne hje]; exact hfr1 y hy hyo' j hj
      have hi2 : Ids N (Function.update qs1 e m) := by
        refine ids_moved hi ?_ ?_
        · refine List.Perm.trans ?_ hev1.symm
          have := everyone_update (qs := qs1) (k := e) h3 (s' := m) (A := []) (B := [a.id]) (by
            unfold presentIds
            rw [m10, m9]
            simpa using (m8.map (fun x : Agent T => x.id)).append_right
              ((qs1 e).queue.map (·.id) ++ (agents (qs1 e).departures).map (·.id)))
          simpa using this
        · intro j
          by_cases hje : j = e
          · subst hje; rw [Function.update_self, m4, ho1]
          · rw [Function.update_of_ne hje, ho1]
      have key : ∀ (q : QS T), (∀ y, SameFor m q y) → q.oArrivals = m.oArrivals → q.collectData = m.collectData →
          presentIds q = presentIds m → q.currentT ≤ headTime q.arrivals → EvA (N.qc e) q s2 none →
          nextEvent (N.qc e) q = .ok (s2, none) →
          Trips N (Function.update qs1 e s2) := by
        intro q q1 q2 q3 q4 q5 q6 q7
        have t3 : Trips N (Function.update qs1 e q) := by
          have := ht2.same h3 (s' := q) (by rw [Function.update_self]; exact q1)
            (by rw [Function.update_self]; exact q2) (by rw [Function.update_self]; exact q3)
          rwa [Function.update_idem] at this
        have i3 : Ids N (Function.update qs1 e q) := by
          refine hi2.congr (fun j => ?_) (fun j => ?_) <;> by_cases hje : j = e
          · subst hje; rw [Function.update_self, Function.update_self, q4]
          · rw [Function.update_of_ne hje, Function.update_of_ne hje]
          · subst hje; rw [Function.update_self, Function.update_self, q2]
          · rw [Function.update_of_ne hje, Function.update_of_ne hje]
        have := t3.event hN i3 h3 (s' := s2) (by rw [Function.update_self]; exact q5)
          (by rw [Function.update_self]; exact q6) (by rw [Function.update_self]; exact q7)
        rwa [Function.update_idem] at this
      have hce : (qs1 e).currentT ≤ a.time := by
        rw [hqs1]
        by_cases hek : e = k
        · subst hek; rw [Function.update_self, h10.cur, h10.time]
        · rw [Function.update_of_ne hek, h10.time]
          exact (hinv.clk e h3 g1).trans (hinv.tau k h1)
      have hmc : m.currentT ≤ m.time := by rw [hm.2.1, m12]; exact hce
      split at m13
      · exact key (setInactive m) (fun y => ⟨rfl, fun _ h _ => h, id, id, le_rfl, id⟩) rfl rfl rfl (m13.headArr hmc)
          m13.out m13.ev
      · exact key m (fun y => ⟨rfl, fun _ h _ => h, id, id, le_rfl, id⟩) rfl rfl rfl (m13.headArr hmc) m13.out m13.ev
    | null m g1 g2 g3 g4 g5 =>
      unfold addArrivalAgent at g2
      rw [if_pos g1, hon1 e h3, if_pos rfl] at g2
      simp only [Except.ok.injEq] at g2
      have f1 : s2.arrivals = (qs1 e).arrivals := by rw [g5, ← g2]; split <;> rfl
      have f2 : s2.queue = (qs1 e).queue := by rw [g5, ← g2]; split <;> rfl
      have f3 : s2.departures = (qs1 e).departures := by rw [g5, ← g2]; split <;> rfl
      have f4 : s2.currentT = (qs1 e).currentT := by rw [g5, ← g2]; split <;> rfl
      have f5 : s2.collectData = (qs1 e).collectData := by rw [hon1 e h3, g5, ← g2]; split <;> rfl
      have f6 : s2.oArrivals = (qs1 e).oArrivals := by rw [g5, ← g2]; split <;> rfl
      have f7 : s2.data = (qs1 e).data.append a.id ⟨a.time, 0, 0, 0, 0⟩ := by rw [g5, ← g2]; split <;> rfl
      refine ⟨?_, ?_, fun y => Trips.leave p1 p2 p3 p4 p5 h3 hout f1 f2 f3 rfl (.inl ⟨.inr (.inl g1), rfl, rfl⟩) f7 f4 y⟩
      · intro j hj
        by_cases hje : j = e
        · subst hje; rw [Function.update_self, f5]; exact hon1 j hj
        · rw [Function.update_of_ne hje]; exact hon1 j hj
      · intro y hy hyo j hj
        have hyo' : (qs1 y.1).oArrivals ≤ y.2 := by
          by_cases hye : y.1 = e
          · rw [hye, Function.update_self, f6] at hyo; rw [hye]; exact hyo
          · rwa [Function.update_of_ne hye] at hyo
        have hya : y ≠ a.id := by
          rintro rfl
          rw [ho1] at hyo'
          omega
        by_cases hje : j = e
        · subst hje; rw [Function.update_self, f7, Data.rows_append, if_neg hya]; exact hfr1 y hy hyo' j hj
        · rw [Function.update_of_ne hje]; exact hfr1 y hy hyo' j hj

end Verif
