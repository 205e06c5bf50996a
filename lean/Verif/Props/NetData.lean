import Verif.NetData
import Verif.NetRun
import Verif.Props.Queue4
import Verif.Props.NetWit

/-! # Properties of the data views: C55 -/

namespace Verif

namespace DataSpec

variable {T R : Type*}

/-- The rows recorded for agent `id` in queue `k`, with the number of the queue. -/
def recorded (n : Net T R) (id : Nat × Nat) (k : Nat) : List (FRow T) :=
  ((n.qs k).data.filter fun p => p.1 = id).flatMap fun p => p.2.map fun r => ⟨r, k⟩

/-- All rows recorded in queue `k`. -/
def recordedAll (n : Net T R) (k : Nat) : List (FRow T) :=
  (n.qs k).data.flatMap fun p => p.2.map fun r => ⟨r, k⟩

end DataSpec

open DataSpec

section

variable {T R : Type*} [LinearOrder T]

/-- The rows of an agent, none if it is not there. -/
def rowsAt (d : Dict (Nat × Nat) (List (FRow T))) (id : Nat × Nat) : List (FRow T) := (Dict.get? d id).getD []

omit [LinearOrder T] in
theorem rowsAt_addRows (d : Dict (Nat × Nat) (List (FRow T))) (id : Nat × Nat) (rows : List (FRow T)) (j : Nat × Nat) :
    rowsAt (addRows d id rows) j = if j = id then rowsAt d j ++ rows else rowsAt d j := by
  unfold rowsAt addRows
  cases hd : Dict.get? d id with
  | some old =>
    simp only [Dict.get?_set]
    by_cases hj : j = id
    · subst hj; simp [hd]
    · simp [hj]
  | none =>
    simp only [Dict.get?_set]
    by_cases hj : j = id
    · subst hj; simp [hd]
    · simp [hj]

omit [LinearOrder T] in
theorem keys_addRows (d : Dict (Nat × Nat) (List (FRow T))) (id : Nat × Nat) (rows : List (FRow T)) (j : Nat × Nat) :
    j ∈ Dict.keys (addRows d id rows) ↔ j = id ∨ j ∈ Dict.keys d := by
  unfold addRows
  cases hd : Dict.get? d id <;> exact Dict.mem_keys_set

omit [LinearOrder T] in
theorem addRows_ok {d : Dict (Nat × Nat) (List (FRow T))} (h : Dict.Ok d) (id : Nat × Nat) (rows : List (FRow T)) :
    Dict.Ok (addRows d id rows) := by
  unfold addRows
  cases Dict.get? d id <;> exact h.set _ _

omit [LinearOrder T] in
theorem addQueueRows_spec (k : Nat) (data : Data T) : ∀ (d : Dict (Nat × Nat) (List (FRow T))), Dict.Ok d →
    Dict.Ok (addQueueRows d k data) ∧
    (∀ j, rowsAt (addQueueRows d k data) j = rowsAt d j ++
      (data.filter fun p => p.1 = j).flatMap fun p => p.2.map fun r => (⟨r, k⟩ : FRow T)) ∧
    ∀ j, j ∈ Dict.keys (addQueueRows d k data) ↔ j ∈ Dict.keys d ∨ ∃ p ∈ data, p.1 = j := by
  induction data with
  | nil => intro d h; exact ⟨h, by simp [addQueueRows], by simp [addQueueRows]⟩
  | cons p data ih =>
    intro d h
    obtain ⟨h1, h2, h3⟩ := ih _ (addRows_ok h p.1 (p.2.map fun r => ⟨r, k⟩))
    refine ⟨h1, fun j => ?_, fun j => ?_⟩
    · have := h2 j
      unfold addQueueRows at this ⊢
      rw [List.foldl_cons, this, rowsAt_addRows]
      by_cases hj : j = p.1
      · subst hj; simp
      · simp [hj, Ne.symm hj]
    · have := h3 j
      unfold addQueueRows at this ⊢
      rw [List.foldl_cons, this, keys_addRows]
      simp only [List.mem_cons, exists_eq_or_imp]
      rw [eq_comm (a := p.1)]
      tauto

omit [LinearOrder T] in
theorem agentData_spec (n : Net T R) (ks : List Nat) : ∀ (d : Dict (Nat × Nat) (List (FRow T))), Dict.Ok d →
    Dict.Ok (ks.foldl (fun d k => addQueueRows d k (n.qs k).data) d) ∧
    (∀ j, rowsAt (ks.foldl (fun d k => addQueueRows d k (n.qs k).data) d) j = rowsAt d j ++ ks.flatMap (recorded n j)) ∧
    ∀ j, j ∈ Dict.keys (ks.foldl (fun d k => addQueueRows d k (n.qs k).data) d) ↔
      j ∈ Dict.keys d ∨ ∃ k ∈ ks, ∃ p ∈ (n.qs k).data, p.1 = j := by
  induction ks with
  | nil => intro d h; exact ⟨h, by simp, by simp⟩
  | cons k ks ih =>
    intro d h
    obtain ⟨a1, a2, a3⟩ := addQueueRows_spec k (n.qs k).data d h
    obtain ⟨h1, h2, h3⟩ := ih _ a1
    refine ⟨h1, fun j => ?_, fun j => ?_⟩
    · rw [List.foldl_cons, h2, a2, List.flatMap_cons, List.append_assoc]; rfl
    · rw [List.foldl_cons, h3, a3]
      simp only [List.mem_cons, exists_eq_or_imp, or_assoc]

/-- All rows in a dict. -/
def allOf (d : Dict (Nat × Nat) (List (FRow T))) : List (FRow T) := d.flatMap Prod.snd

omit [LinearOrder T] in
theorem allOf_addRows (d : Dict (Nat × Nat) (List (FRow T))) (id : Nat × Nat) (rows : List (FRow T)) :
    (allOf (addRows d id rows)).Perm (allOf d ++ rows) := by
  have h1 : ∀ (d : Dict (Nat × Nat) (List (FRow T))) (old : List (FRow T)), Dict.get? d id = some old →
      (allOf (Dict.set d id (old ++ rows))).Perm (allOf d ++ rows) := by
    intro d
    induction d with
    | nil => intro old h; simp [Dict.get?] at h
    | cons p d ih =>
      intro old h
      obtain ⟨i, x⟩ := p
      simp only [Dict.get?] at h
      simp only [Dict.set]
      split at h
      · rename_i hi
        simp only [Option.some.injEq] at h
        subst h
        rw [if_pos hi]
        simp only [allOf, List.flatMap_cons, List.append_assoc]
        exact List.Perm.append_left _ List.perm_append_comm
      · rename_i hi
        rw [if_neg hi]
        simp only [allOf, List.flatMap_cons, List.append_assoc]
        exact List.Perm.append_left _ (ih old h)
  have h2 : ∀ (d : Dict (Nat × Nat) (List (FRow T))), Dict.get? d id = none →
      allOf (Dict.set d id rows) = allOf d ++ rows := by
    intro d
    induction d with
    | nil => intro _; simp [Dict.set, allOf]
    | cons p d ih =>
      intro h
      obtain ⟨i, x⟩ := p
      simp only [Dict.get?] at h
      simp only [Dict.set]
      split at h
      · simp at h
      · rename_i hi
        rw [if_neg hi]
        have := ih h
        unfold allOf at this ⊢
        simp only [List.flatMap_cons, this, List.append_assoc]
  unfold addRows
  cases hd : Dict.get? d id with
  | some old => exact h1 d old hd
  | none => rw [h2 d hd]

omit [LinearOrder T] in
theorem allOf_addQueueRows (k : Nat) (data : Data T) : ∀ (d : Dict (Nat × Nat) (List (FRow T))),
    (allOf (addQueueRows d k data)).Perm (allOf d ++ data.flatMap fun p => p.2.map fun r => ⟨r, k⟩) := by
  induction data with
  | nil => intro d; simp [addQueueRows]
  | cons p data ih =>
    intro d
    have := ih (addRows d p.1 (p.2.map fun r => ⟨r, k⟩))
    unfold addQueueRows at this ⊢
    rw [List.foldl_cons]
    refine this.trans ?_
    rw [List.flatMap_cons, ← List.append_assoc]
    exact (allOf_addRows _ _ _).append_right _

omit [LinearOrder T] in
theorem allOf_agentData (n : Net T R) (ks : List Nat) : ∀ (d : Dict (Nat × Nat) (List (FRow T))),
    (allOf (ks.foldl (fun d k => addQueueRows d k (n.qs k).data) d)).Perm (allOf d ++ ks.flatMap (recordedAll n)) := by
  induction ks with
  | nil => intro d; simp
  | cons k ks ih =>
    intro d
    rw [List.foldl_cons]
    refine (ih _).trans ?_
    rw [List.flatMap_cons, ← List.append_assoc]
    exact (allOf_addQueueRows k _ d).append_right _

/-- C55. `get_queue_data` returns the rows recorded in the selected queues, each with the number of its queue. -/
theorem C55_queue_data {N : NetCfg T R} (n : Net T R) {ks : List Nat} (hks : ∀ k ∈ ks, (N.qc k).edge.idx = k) :
    (n.queueData N ks).Perm (ks.flatMap (recordedAll n)) := by
  unfold Net.queueData
  induction ks with
  | nil => simp
  | cons k ks ih =>
    rw [List.flatMap_cons, List.flatMap_cons]
    refine List.Perm.append ?_ (ih fun j hj => hks j (by simp [hj]))
    unfold fetchData
    refine (List.perm_insertionSort _ _).trans ?_
    rw [hks k (by simp)]
    unfold recordedAll allRows
    rw [List.map_flatMap]

/-- C55. `get_agent_data` has an entry for exactly the agents with data in a selected queue; it holds the rows
recorded for this agent in the selected queues, each as often as recorded, sorted by arrival time. -/
theorem C55_agent_data (n : Net T R) (ks : List Nat) :
    ((n.agentData ks).map Prod.fst).Nodup ∧
    (∀ id, (∃ rows, (id, rows) ∈ n.agentData ks) ↔ ∃ k ∈ ks, ∃ p ∈ (n.qs k).data, p.1 = id) ∧
    ∀ id rows, (id, rows) ∈ n.agentData ks →
      rows.Perm (ks.flatMap (recorded n id)) ∧ rows.Pairwise fun x y => x.row.arr ≤ y.row.arr := by
  obtain ⟨h1, h2, h3⟩ := agentData_spec n ks [] List.nodup_nil
  have hkeys : (n.agentData ks).map Prod.fst = Dict.keys (ks.foldl (fun d k => addQueueRows d k (n.qs k).data) []) :=
    Dict.keys_map _ fun _ (l : List (FRow T)) => l.insertionSort FRow.le
  refine ⟨hkeys ▸ h1, fun id => ?_, fun id rows hr => ?_⟩
  · have := h3 id
    rw [← hkeys] at this
    simp only [Dict.keys_nil, List.not_mem_nil, false_or] at this
    rw [← this]
    simp only [List.mem_map, Prod.exists, exists_and_right, exists_eq_right]
  · unfold Net.agentData at hr
    obtain ⟨⟨i, x⟩, hx, he⟩ := List.mem_map.mp hr
    simp only [Prod.mk.injEq] at he
    obtain ⟨rfl, rfl⟩ := he
    have hg := Dict.get?_of_mem h1 hx
    have := h2 i
    unfold rowsAt at this
    rw [hg] at this
    simp only [Option.getD_some, Dict.get?, Option.getD_none, List.nil_append] at this
    refine ⟨(List.perm_insertionSort _ _).trans (by rw [this]), ?_⟩
    refine (List.pairwise_insertionSort FRow.le x).imp ?_
    intro a b hab
    unfold FRow.le at hab
    rcases hab with h | ⟨h, _⟩
    · exact h.le
    · exact h.le

/-- C55. The two views contain the same rows. -/
theorem C55_views_agree {N : NetCfg T R} (n : Net T R) {ks : List Nat} (hks : ∀ k ∈ ks, (N.qc k).edge.idx = k) :
    ((n.agentData ks).flatMap Prod.snd).Perm (n.queueData N ks) := by
  refine List.Perm.trans ?_ (C55_queue_data n hks).symm
  refine List.Perm.trans ?_ (by simpa [allOf] using allOf_agentData n ks [])
  unfold Net.agentData
  rw [List.flatMap_map]
  generalize ks.foldl (fun d k => addQueueRows d k (n.qs k).data) [] = d
  induction d with
  | nil => simp
  | cons p d ih =>
    rw [List.flatMap_cons, List.flatMap_cons]
    exact (List.perm_insertionSort _ _).append ih

end

section

variable {T R : Type*}

/-- C55. `clear_data` empties exactly the selected queues; `start_collecting_data` and `stop_collecting_data` change
exactly theirs; nothing else changes. -/
theorem C55_clear_data (n : Net T R) (ks : List Nat) :
    (∀ k, ((n.clearData ks).qs k) = if k ∈ ks then { n.qs k with data := [] } else n.qs k) ∧
    (n.clearData ks).numAgents = n.numAgents ∧ (n.clearData ks).heap = n.heap ∧ (n.clearData ks).t = n.t ∧
    (n.clearData ks).numEvents = n.numEvents ∧ (n.clearData ks).probs = n.probs ∧
    (n.clearData ks).initialized = n.initialized := by
  induction ks generalizing n with
  | nil => simp [Net.clearData]
  | cons j ks ih =>
    obtain ⟨h1, h2⟩ := ih (n.setQ j { n.qs j with data := [] })
    refine ⟨fun k => ?_, h2⟩
    unfold Net.clearData
    rw [h1]
    by_cases hk : k = j
    · subst hk
      have : (n.setQ k { n.qs k with data := [] }).qs k = { n.qs k with data := [] } := by simp [Net.setQ]
      rw [this]; simp
    · have : (n.setQ j { n.qs j with data := [] }).qs k = n.qs k := by simp [Net.setQ, hk]
      rw [this]; simp [hk]

/-- C55. Starting and stopping the collection of data. -/
theorem C55_collecting (n : Net T R) (b : Bool) (ks : List Nat) :
    (∀ k, ((n.collect b ks).qs k) = if k ∈ ks then { n.qs k with collectData := b } else n.qs k) ∧
    (n.collect b ks).numAgents = n.numAgents ∧ (n.collect b ks).heap = n.heap ∧ (n.collect b ks).t = n.t ∧
    (n.collect b ks).numEvents = n.numEvents ∧ (n.collect b ks).probs = n.probs ∧
    (n.collect b ks).initialized = n.initialized := by
  induction ks generalizing n with
  | nil => simp [Net.collect]
  | cons j ks ih =>
    obtain ⟨h1, h2⟩ := ih (n.setQ j { n.qs j with collectData := b })
    refine ⟨fun k => ?_, h2⟩
    unfold Net.collect
    rw [h1]
    by_cases hk : k = j
    · subst hk
      have : (n.setQ k { n.qs k with collectData := b }).qs k = { n.qs k with collectData := b } := by simp [Net.setQ]
      rw [this]; simp
    · have : (n.setQ j { n.qs j with collectData := b }).qs k = n.qs k := by simp [Net.setQ, hk]
      rw [this]; simp [hk]

end

/-- After 9 events agent `(0, 0)` of the demonstration network has rows from three queues. -/
example : (∀ k ∈ [0, 1, 2, 3], (demoNet.qc k).edge.idx = k) ∧
    ((demoAt 9).agentData [0, 1, 2, 3]).map (fun p => (p.1, p.2.map (·.qid))) =
      [((0, 0), [0, 1, 3]), ((0, 1), [0]), ((0, 2), [0]), ((0, 3), [0]), ((2, 0), [2])] ∧
    ((demoAt 9).queueData demoNet [0, 1, 2, 3]).length = 7 := by
  refine ⟨by decide, by decide +kernel, by decide +kernel⟩

end Verif
