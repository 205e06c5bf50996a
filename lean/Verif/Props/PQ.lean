import Verif.PQ
import Mathlib.Data.ENat.Basic

/-!
# Properties C01-C04: the scheduler's priority queue and heaps

Specification in terms of the history of calls only (newest call first).
-/

namespace Verif.PQSpec

variable {T : Type*} [LinearOrder T] [OrderTop T]

/-- A call with its answer. -/
inductive Ev (T : Type*)
  | push (t : T) (k : Nat)
  | pop (r : Option (T × Nat))

/-- The time most recently pushed for node `k` (construction keys count as pushes; `⊤` if none). -/
def lastTime (keys : List (T × Nat)) : List (Ev T) → Nat → T
  | [], k => (((keys.filter (fun p => p.2 = k)).getLast?).map Prod.fst).getD ⊤
  | .push t k' :: es, k => if k' = k then t else lastTime keys es k
  | .pop _ :: es, k => lastTime keys es k

/-- Node `k` has been pushed and no pair for `k` has been handed out since. -/
def Pending (keys : List (T × Nat)) : List (Ev T) → Nat → Prop
  | [], k => ∃ t, (t, k) ∈ keys
  | .push _ k' :: es, k => k' = k ∨ Pending keys es k
  | .pop (some (_, k')) :: es, k => k' ≠ k ∧ Pending keys es k
  | .pop none :: es, k => Pending keys es k

/-- All pairs ever pushed. -/
def pushed (keys : List (T × Nat)) : List (Ev T) → List (T × Nat)
  | [] => keys
  | .push t k :: es => (t, k) :: pushed keys es
  | .pop _ :: es => pushed keys es

/-- All pairs handed out. -/
def returned : List (Ev T) → List (T × Nat)
  | [] => []
  | .push _ _ :: es => returned es
  | .pop (some r) :: es => r :: returned es
  | .pop none :: es => returned es

/-- Legal use of a `PriorityQueue(keys, n)`: node numbers below `n`, `pop` only when non-empty. -/
inductive Run (keys : List (T × Nat)) (n : Nat) : List (Ev T) → PQ T → Prop
  | init {pq} : PQ.init keys n = some pq → Run keys n [] pq
  | push {es pq pq'} {g : Nat → T × Nat} {t : T} {k : Nat} : Run keys n es pq → k < n →
      pq.push g t k = some pq' → Run keys n (.push t k :: es) pq'
  | pop {es pq pq'} {r : Option (T × Nat)} : Run keys n es pq → 0 < pq.size →
      pq.pop = some (pq', r) → Run keys n (.pop r :: es) pq'

omit [LinearOrder T] [OrderTop T] in
theorem initTimes_get (n : Nat) : ∀ (keys : List (T × Nat)) (q q' : List T), q.length = n →
    PQ.initTimes keys q = some q' → ∀ k, k < n → ∀ d, q[k]? = some d →
      q'[k]? = some ((((keys.filter (fun p => p.2 = k)).getLast?).map Prod.fst).getD d) := by
  intro keys
  induction keys with
  | nil =>
    intro q q' _ h k _ d hd
    simp only [PQ.initTimes, Option.some.injEq] at h; subst h
    simpa using hd
  | cons p ks ih =>
    obtain ⟨t, j⟩ := p
    intro q q' hq h k hk d hd
    simp only [PQ.initTimes, setChk] at h
    split at h
    · simp at h
    · rename_i q1 hq1
      split at hq1
      · rename_i hj
        simp only [Option.some.injEq] at hq1; subst hq1
        by_cases hjk : j = k
        · subst hjk
          rw [ih _ _ (by simpa using hq) h j hk t (List.getElem?_set_self hj)]
          simp only [List.filter_cons, decide_true, if_true]
          rw [List.getLast?_cons]
          cases hl : (List.filter (fun p : T × Nat => decide (p.2 = j)) ks).getLast? with
          | none => simp
          | some x => simp
        · rw [ih _ _ (by simpa using hq) h k hk d (by rw [List.getElem?_set_ne hjk]; exact hd)]
          simp [hjk]
      · simp at hq1

/-- What holds after every legal history. -/
structure Good (keys : List (T × Nat)) (n : Nat) (es : List (Ev T)) (pq : PQ T) : Prop where
  inv : pq.Inv n
  last : ∀ k, k < n → pq.qtimes[k]? = some (lastTime keys es k)
  pend : ∀ k, Pending keys es k → k < n ∧ (lastTime keys es k, k) ∈ pq.stored
  account : ∃ dropped, (pushed keys es).Perm (returned es ++ dropped ++ pq.stored)

theorem run_good {keys : List (T × Nat)} {n : Nat} (hne : keys ≠ []) (hk : ∀ p ∈ keys, p.2 < n)
    {es : List (Ev T)} {pq : PQ T} (h : Run keys n es pq) : Good keys n es pq := by
  induction h with
  | @init pq h =>
    obtain ⟨pq1, q, h1, h2, h3, h4, h5⟩ := PQ.init_spec keys n hk
    rw [h] at h1
    simp only [Option.some.injEq] at h1; subst h1
    refine ⟨h5 hne, ?_, ?_, [], by simpa [pushed, returned] using h4.symm⟩
    · intro k hkn
      rw [h3]
      exact initTimes_get n keys _ q (by simp) h2 k hkn ⊤ (by simp [hkn])
    · rintro k ⟨t, ht⟩
      refine ⟨hk _ ht, h4.mem_iff.mpr ?_⟩
      have hmem : (t, k) ∈ keys.filter (fun p => p.2 = k) := by simp [ht]
      simp only [lastTime]
      cases hl : (keys.filter (fun p => p.2 = k)).getLast? with
      | none => rw [List.getLast?_eq_none_iff] at hl; rw [hl] at hmem; simp at hmem
      | some x =>
        have hx := List.mem_of_getLast? hl
        simp only [List.mem_filter, decide_eq_true_eq] at hx
        obtain ⟨a, b⟩ := x
        simp at hx
        obtain ⟨hx, rfl⟩ := hx
        simpa using hx
  | @push es pq pq' g t k _ hkn hp ih =>
    obtain ⟨pq1, h1, h2, h3, h4, -⟩ := PQ.push_spec ih.inv g t hkn
    rw [hp] at h1
    simp only [Option.some.injEq] at h1; subst h1
    refine ⟨h2, ?_, ?_, ?_⟩
    · intro j hj
      rw [h4]
      by_cases hjk : k = j
      · subst hjk
        rw [List.getElem?_set_self (by rw [ih.inv.qlen]; exact hj)]
        simp [lastTime]
      · rw [List.getElem?_set_ne hjk, ih.last j hj]
        simp [lastTime, hjk]
    · intro j hj
      by_cases hjk : k = j
      · subst hjk
        refine ⟨hkn, h3.mem_iff.mpr ?_⟩
        simp [lastTime]
      · rcases hj with hj | hj
        · exact absurd hj hjk
        · obtain ⟨a, b⟩ := ih.pend j hj
          refine ⟨a, h3.mem_iff.mpr ?_⟩
          simp only [lastTime, if_neg hjk]
          exact List.mem_cons_of_mem _ b
    · obtain ⟨d, hd⟩ := ih.account
      refine ⟨d, ?_⟩
      simp only [pushed, returned]
      refine (hd.cons _).trans ?_
      refine List.Perm.trans ?_ (List.Perm.append_left _ h3.symm)
      exact (List.perm_middle).symm
  | @pop es pq pq' r _ hs hp ih =>
    obtain ⟨pq1, res, h1, h2, h3, h4⟩ := PQ.pop_spec ih.inv hs
    rw [hp] at h1
    simp only [Option.some.injEq, Prod.mk.injEq] at h1
    obtain ⟨rfl, rfl⟩ := h1
    have hlt : ∀ k, lastTime keys (.pop r :: es) k = lastTime keys es k := fun _ => rfl
    have hlive : ∀ k, k < n → pq.Live (lastTime keys es k, k) := fun k hk' => ih.last k hk'
    refine ⟨h2, ?_, ?_, ?_⟩
    · intro k hk'; rw [h3, hlt]; exact ih.last k hk'
    · intro k hpk
      cases r with
      | none =>
        obtain ⟨a, b⟩ := ih.pend k hpk
        exact absurd (hlive k a) (h4.2 _ b)
      | some r =>
        obtain ⟨t', k'⟩ := r
        obtain ⟨hne', hpk⟩ := hpk
        obtain ⟨a, b⟩ := ih.pend k hpk
        refine ⟨a, ?_⟩
        obtain ⟨hl, stale, hst, hperm, -⟩ := h4
        have := hperm.mem_iff.mp b
        rw [hlt]
        rcases List.mem_append.mp this with h' | h'
        · exact absurd (hlive k a) (hst _ h').1
        · rcases List.mem_cons.mp h' with h' | h'
          · simp only [Prod.mk.injEq] at h'
            exact absurd h'.2.symm hne'
          · exact h'
    · obtain ⟨d, hd⟩ := ih.account
      cases r with
      | none =>
        refine ⟨d ++ pq.stored, ?_⟩
        simp only [pushed, returned]
        rw [h4.1, List.append_nil, ← List.append_assoc]; exact hd
      | some r =>
        obtain ⟨hl, stale, hst, hperm, -⟩ := h4
        refine ⟨d ++ stale, ?_⟩
        simp only [pushed, returned]
        refine hd.trans ?_
        refine (List.Perm.append_left _ hperm).trans ?_
        simp only [List.cons_append, List.append_assoc]
        rw [← List.append_assoc, ← List.append_assoc]
        refine List.perm_middle.trans ?_
        simp

/-- **C01.** After any legal history, a pair `(t, k)` answered by `pop()` carries the time most
recently pushed for `k`; all pairs handed out so far (this one included) were pushed, each pushed
occurrence handed out at most once; every node pushed and not handed out since has its latest time
at or after `t`. -/
theorem C01_pop_returns_earliest_live {keys : List (T × Nat)} {n : Nat} (hne : keys ≠ [])
    (hk : ∀ p ∈ keys, p.2 < n) {es : List (Ev T)} {pq pq' : PQ T} (h : Run keys n es pq)
    (hs : 0 < pq.size) {t : T} {k : Nat} (hp : pq.pop = some (pq', some (t, k))) :
    t = lastTime keys es k ∧
    ((t, k) :: returned es).Subperm (pushed keys es) ∧
    (∀ k', Pending keys es k' → t ≤ lastTime keys es k') ∧
    (∀ p ∈ pq.stored, p.1 = lastTime keys es p.2 → t ≤ p.1) ∧
    (∃ dropped, pq.stored.Perm (dropped ++ (t, k) :: pq'.stored) ∧
      ∀ p ∈ dropped, p.1 ≠ lastTime keys es p.2) := by
  have hg := run_good hne hk h
  obtain ⟨pq1, res, h1, h2, h3, h4⟩ := PQ.pop_spec hg.inv hs
  rw [hp] at h1
  simp only [Option.some.injEq, Prod.mk.injEq] at h1
  obtain ⟨rfl, rfl⟩ := h1
  obtain ⟨hl, stale, hst, hperm, hmin⟩ := h4
  have hmem : (t, k) ∈ pq.stored := hperm.mem_iff.mpr (by simp)
  have hkn : k < n := hg.inv.nodes _ hmem
  have hlive : ∀ p ∈ pq.stored, p.1 = lastTime keys es p.2 → pq.Live p := by
    intro p hp' he
    unfold PQ.Live
    rw [hg.last _ (hg.inv.nodes _ hp'), he]
  have hbound : ∀ p ∈ pq.stored, p.1 = lastTime keys es p.2 → t ≤ p.1 := by
    intro p hp' he
    rcases List.mem_append.mp (hperm.mem_iff.mp hp') with h' | h'
    · exact absurd (hlive p hp' he) (hst p h').1
    · rcases List.mem_cons.mp h' with rfl | h'
      · exact le_rfl
      · exact hmin p h'
  refine ⟨?_, ?_, ?_, hbound, stale, hperm, ?_⟩
  · have := hg.last k hkn
    unfold PQ.Live at hl
    simp only at hl
    rw [hl] at this; simpa using this
  · have hg2 := run_good hne hk (.pop h hs hp)
    obtain ⟨d, hd⟩ := hg2.account
    simp only [pushed, returned] at hd
    refine List.Subperm.trans ?_ hd.symm.subperm
    rw [List.append_assoc]
    exact (List.sublist_append_left _ _).subperm
  · intro k' hk'
    obtain ⟨a, b⟩ := hg.pend k' hk'
    exact hbound _ b rfl
  · intro p hp' he
    have hm : p ∈ pq.stored := hperm.mem_iff.mpr (by simp [hp'])
    exact (hst p hp').1 (hlive p hm he)

/-- **C02.** No legal call ever leaves the arrays: every `push` (including every growth of the array,
whatever garbage the new cells hold) and every `pop` on a non-empty queue succeeds. -/
theorem C02_memory_safe {keys : List (T × Nat)} {n : Nat} (hne : keys ≠ [])
    (hk : ∀ p ∈ keys, p.2 < n) :
    (∃ pq, PQ.init keys n = some pq) ∧
    ∀ {es : List (Ev T)} {pq : PQ T}, Run keys n es pq →
      (∀ g t k, k < n → ∃ pq', pq.push g t k = some pq') ∧
      (0 < pq.size → ∃ pq' r, pq.pop = some (pq', r)) ∧
      pq.size ≤ pq.arr.length ∧ pq.arr.length = pq.actualSize := by
  constructor
  · obtain ⟨pq, _, h, -⟩ := PQ.init_spec keys n hk
    exact ⟨pq, h⟩
  · intro es pq h
    have hg := run_good hne hk h
    refine ⟨?_, ?_, ?_, hg.inv.len⟩
    · intro g t k hkn
      obtain ⟨pq', h', -⟩ := PQ.push_spec hg.inv g t hkn
      exact ⟨pq', h'⟩
    · intro hs
      obtain ⟨pq', r, h', -⟩ := PQ.pop_spec hg.inv hs
      exact ⟨pq', r, h'⟩
    · rw [hg.inv.len]; exact hg.inv.size_le

/-- **C02**, the side condition is necessary: a queue constructed without keys cannot grow
(`2 * 0 = 0`), so the first `push` writes outside the array. -/
theorem C02_empty_construction_unsafe (n : Nat) (g : Nat → T × Nat) (t : T) (k : Nat) :
    ∃ pq : PQ T, PQ.init [] n = some pq ∧ pq.push g t k = none := by
  refine ⟨⟨[], 0, 0, List.replicate n ⊤⟩, by simp [PQ.init, PQ.initTimes, heapify, heapifyLoop], ?_⟩
  simp only [PQ.push, setChk]
  split
  · rfl
  · simp [PQ.resize]

omit [OrderTop T] in
/-- **C02**, the other side condition is necessary too: `pop` on an empty queue reads outside. -/
theorem C02_pop_empty_unsafe (pq : PQ T) (h : pq.size = 0) : pq.pop = none := by
  simp [PQ.pop, PQ.heappop, h]

/-- **C03.** `pop()` on a non-empty queue answers `None` exactly when every stored pair is superseded;
then the queue is empty afterwards and no pushed node is still waiting to be handed out. -/
theorem C03_none_iff_nothing_live {keys : List (T × Nat)} {n : Nat} (hne : keys ≠ [])
    (hk : ∀ p ∈ keys, p.2 < n) {es : List (Ev T)} {pq : PQ T} (h : Run keys n es pq)
    (hs : 0 < pq.size) :
    ∃ pq' r, pq.pop = some (pq', r) ∧
      (r = none ↔ ∀ p ∈ pq.stored, p.1 ≠ lastTime keys es p.2) ∧
      (r = none → pq'.size = 0 ∧ pq'.stored = [] ∧ ∀ k, ¬ Pending keys es k) := by
  have hg := run_good hne hk h
  obtain ⟨pq', r, h1, h2, h3, h4⟩ := PQ.pop_spec hg.inv hs
  have hlive : ∀ p ∈ pq.stored, pq.Live p ↔ p.1 = lastTime keys es p.2 := by
    intro p hp
    unfold PQ.Live
    rw [hg.last _ (hg.inv.nodes _ hp)]
    simp [eq_comm]
  refine ⟨pq', r, h1, ?_, ?_⟩
  · cases r with
    | none => simpa using fun a b hp he => h4.2 (a, b) hp ((hlive _ hp).mpr he)
    | some r =>
      simp only [reduceCtorEq, false_iff]
      intro hall
      obtain ⟨hl, stale, _, hperm, -⟩ := h4
      have hm : r ∈ pq.stored := hperm.mem_iff.mpr (by simp)
      exact hall r hm ((hlive r hm).mp hl)
  · rintro rfl
    refine ⟨?_, h4.1, ?_⟩
    · have := h4.1
      have hl := congrArg List.length this
      simp only [PQ.stored, List.length_take, List.length_nil] at hl
      have := h2.len; have := h2.size_le; have := h2.pos
      omega
    · intro k hp
      obtain ⟨a, b⟩ := hg.pend k hp
      exact h4.2 _ b ((hlive _ b).mpr rfl)

/-! ### Non-vacuity: a concrete history with a superseded key -/

/-- `PriorityQueue([(5,0),(3,1)], 2)`, `push(4, 1)`: node 1's key 3 is superseded, and `pop` silently
drops it and answers `(4, 1)`. -/
example : ∃ (pq pq' : PQ ℕ∞), Run [((5 : ℕ∞), 0), (3, 1)] 2 [.push 4 1] pq ∧ 0 < pq.size ∧
    pq.pop = some (pq', some (4, 1)) := by
  have h0 : PQ.init [((5 : ℕ∞), 0), (3, 1)] 2 = some ⟨[(3, 1), (5, 0)], 2, 2, [5, 3]⟩ := by
    decide +kernel
  have h1 : (PQ.mk [((3 : ℕ∞), 1), (5, 0)] 2 2 [5, 3]).push (fun _ => (0, 0)) 4 1 =
      some ⟨[(3, 1), (5, 0), (4, 1), (0, 0)], 3, 4, [5, 4]⟩ := by decide +kernel
  have h2 : (PQ.mk [((3 : ℕ∞), 1), (5, 0), (4, 1), (0, 0)] 3 4 [5, 4]).pop.map Prod.snd =
      some (some (4, 1)) := by decide +kernel
  obtain ⟨x, h3, h4⟩ := Option.map_eq_some_iff.mp h2
  obtain ⟨pq', r⟩ := x
  simp only at h4; subst h4
  exact ⟨_, pq', .push (.init h0) (by decide) h1, by decide, h3⟩

end Verif.PQSpec

namespace Verif.HeapSpec

variable {α T : Type*} [LinearOrder T]

/-- **C04.** `heappush` on a heap: adds exactly the new element, and the first element is minimal. -/
theorem C04_heappush (key : α → T) (l : List α) (x : α) (h : IsHeap key l) :
    ∃ a r, heappush key l x = some (a :: r) ∧ (a :: r).Perm (x :: l) ∧ IsHeap key (a :: r) ∧
      ∀ b ∈ x :: l, key a ≤ key b := by
  obtain ⟨l', h1, h2, h3⟩ := heappush_spec key l x h
  cases l' with
  | nil => simpa using h2.length_eq
  | cons a r => exact ⟨a, r, h1, h2, h3, fun b hb => h3.head_le b (h2.mem_iff.mpr hb)⟩

/-- **C04.** `heappop` on a non-empty heap: removes exactly one element, a minimal one (the first). -/
theorem C04_heappop (key : α → T) (a : α) (l : List α) (h : IsHeap key (a :: l)) :
    ∃ l', heappop key (a :: l) = some (a, l') ∧ (a :: l').Perm (a :: l) ∧ IsHeap key l' ∧
      ∀ b ∈ a :: l, key a ≤ key b := by
  obtain ⟨l', h1, h2, h3⟩ := heappop_spec key a l h
  exact ⟨l', h1, h2.cons a, h3, h.head_le⟩

/-- **C04.** `heapify` only permutes and makes a heap. -/
theorem C04_heapify (key : α → T) (l : List α) :
    ∃ l', heapify key l l.length = some l' ∧ l'.Perm l ∧ IsHeap key l' := by
  obtain ⟨l', h1, h2, h3, -⟩ := heapify_spec key l.length l le_rfl
  exact ⟨l', h1, h2, by unfold IsHeap; rw [h2.length_eq]; exact h3⟩

/-- Pop `n` times. -/
def drain (key : α → T) : Nat → List α → Option (List α)
  | 0, _ => some []
  | n + 1, l => do
    let (a, l') ← heappop key l
    let r ← drain key n l'
    pure (a :: r)

/-- **C04.** Popping everything yields all elements in non-decreasing order of key. -/
theorem C04_drain_sorted (key : α → T) : ∀ (l : List α), IsHeap key l →
    ∃ r, drain key l.length l = some r ∧ r.Perm l ∧ r.Pairwise (fun a b => key a ≤ key b) := by
  intro l
  generalize hn : l.length = n
  induction n generalizing l with
  | zero => intro _; exact ⟨[], rfl, by simp [List.length_eq_zero_iff.mp hn], List.Pairwise.nil⟩
  | succ n ih =>
    intro h
    cases l with
    | nil => simp at hn
    | cons a l =>
      obtain ⟨l', h1, h2, h3⟩ := heappop_spec key a l h
      obtain ⟨r, g1, g2, g3⟩ := ih l' (by rw [h2.length_eq]; simpa using hn) h3
      refine ⟨a :: r, by simp [drain, h1, g1], (g2.trans h2).cons a, ?_⟩
      refine List.Pairwise.cons ?_ g3
      intro b hb
      exact h.head_le b (List.mem_cons_of_mem _ ((g2.trans h2).mem_iff.mp hb))

/-- Non-vacuity: heapifying a concrete list with ties and popping. -/
example : ((heapify (id : Nat → Nat) [5, 3, 3, 1, 4] 5).bind (heappop id)).map Prod.fst = some 1 := by
  decide +kernel

end Verif.HeapSpec
