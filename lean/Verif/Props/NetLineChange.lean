import Verif.Props.NetLineCount

/-! # C137: changing a line of queues -/

set_option linter.unusedSectionVars false

namespace Verif.NetSpec

open QueueSpec

variable {T R : Type*} [LinearOrder T] [OrderTop T] [Zero T] [LinearOrder R] [Add R]

theorem passage_le {f g : ℕ → T → T} (h : ∀ j s t, s ≤ t → f j s ≤ g j t) {a a' : ℕ → T} (ha : ∀ r, a r ≤ a' r) (r : ℕ) :
    passage f a r ≤ passage g a' r := by
  induction r with
  | zero => exact h _ _ _ (ha 0)
  | succ r ih => exact h _ _ _ (max_le_max (ha _) ih)

/-- `max` over the agents before: all services are `f`. -/
theorem passage_attained {f : T → T} (hf : Monotone f) (a : ℕ → T) (r : ℕ) :
    ∃ j ≤ r, passage (fun _ => f) a r = f^[r - j + 1] (a j) := by
  induction r with
  | zero => exact ⟨0, le_rfl, rfl⟩
  | succ r ih =>
    obtain ⟨j, hj, e⟩ := ih
    rw [passage, hf.map_max]
    rcases max_choice (f (a (r + 1))) (f (passage (fun _ => f) a r)) with h | h
    · exact ⟨r + 1, le_rfl, by rw [h]; simp⟩
    · refine ⟨j, by omega, ?_⟩
      rw [h, e, show r + 1 - j + 1 = r - j + 1 + 1 by omega, Function.iterate_succ_apply' f (r - j + 1)]

theorem le_passage_iterate {f : T → T} (hf : Monotone f) (a : ℕ → T) {j r : ℕ} (h : j ≤ r) :
    f^[r - j + 1] (a j) ≤ passage (fun _ => f) a r := by
  induction r, h using Nat.le_induction with
  | base =>
    rw [Nat.sub_self]
    cases j with
    | zero => exact le_rfl
    | succ j => exact hf (le_max_left _ _)
  | succ r h ih =>
    rw [show r + 1 - j + 1 = r - j + 1 + 1 by omega, Function.iterate_succ_apply' f (r - j + 1)]
    exact hf (ih.trans (le_max_right _ _))

theorem passage_comm {f g : T → T} (hf : Monotone f) (hg : Monotone g) (hfg : Function.Commute f g) (a : ℕ → T) :
    passage (fun _ => f) (passage (fun _ => g) a) = passage (fun _ => g) (passage (fun _ => f) a) := by
  have one : ∀ {f g : T → T} (_ : Monotone f) (_ : Monotone g) (_ : Function.Commute f g) (r : ℕ),
      passage (fun _ => f) (passage (fun _ => g) a) r ≤ passage (fun _ => g) (passage (fun _ => f) a) r := by
    intro f g hf hg hfg r
    obtain ⟨k, hk, e1⟩ := passage_attained hf (passage (fun _ => g) a) r
    obtain ⟨j, hj, e2⟩ := passage_attained hg a k
    rw [e1, e2, (hfg.iterate_iterate (r - k + 1) (k - j + 1)).eq]
    have h1 := le_passage_iterate hf a (show j ≤ r + j - k by omega)
    have h2 := le_passage_iterate hg (passage (fun _ => f) a) (show r + j - k ≤ r by omega)
    rw [show r + j - k - j + 1 = r - k + 1 by omega] at h1
    rw [show r - (r + j - k) + 1 = k - j + 1 by omega] at h2
    exact (hg.iterate _ h1).trans h2
  funext r
  exact le_antisymm (one hf hg hfg r) (one hg hf hfg.symm r)

theorem foldl_passage {fs gs : List (T → T)} (h : fs.Perm gs) (hm : ∀ f ∈ fs, Monotone f)
    (hc : ∀ f ∈ fs, ∀ g ∈ fs, Function.Commute f g) (a : ℕ → T) :
    fs.foldl (fun a f => passage (fun _ => f) a) a = gs.foldl (fun a f => passage (fun _ => f) a) a := by
  induction h generalizing a with
  | nil => rfl
  | cons f _ ih =>
    exact ih (fun f hf => hm f (List.mem_cons_of_mem _ hf))
      (fun f hf g hg => hc f (List.mem_cons_of_mem _ hf) g (List.mem_cons_of_mem _ hg)) _
  | swap f g l =>
    simp only [List.foldl_cons]
    rw [passage_comm (hm f (by simp)) (hm g (by simp)) (hc f (by simp) g (by simp))]
  | trans h1 _ ih1 ih2 =>
    rw [ih1 hm hc, ih2 (fun f hf => hm f (h1.mem_iff.mpr hf)) fun f hf g hg => hc f (h1.mem_iff.mpr hf) g (h1.mem_iff.mpr hg)]

theorem lineTime_foldl {N : NetCfg T R} {q : ℕ → Nat} {f : ℕ → T → T} {i : ℕ}
    (h : ∀ j ≤ i, (N.qc (q j)).serviceF = fun _ => f j) :
    lineTime N q i = ((List.range (i + 1)).map f).foldl (fun a f => passage (fun _ => f) a)
      fun r => drawn (N.qc (q 0)).arrivalF 0 0 (r + 1) := by
  induction i with
  | zero => rw [lineTime, h 0 le_rfl]; rfl
  | succ i ih =>
    rw [lineTime, ih fun j hj => h j (by omega), h _ le_rfl, List.range_succ (n := i + 1), List.map_append, List.foldl_append]
    rfl

/-- C137: two lines of queues, in any two networks. If each call of `arrival_f` and of `service_f` returns in the first no later
a time than the call of the same number at the queue in the same place of the second, given no earlier a time, then the
`r`-th agent comes to and leaves each queue of the first line no later than that of the second. -/
theorem C137_faster {N N' : NetCfg T R} (hN : N.OkA) (hN' : N'.OkA) (hmax : N.maxAgents = .inf)
    (hmax' : N'.maxAgents = .inf) {q q' : ℕ → Nat} {m : ℕ} (hl : Line N q m) (hl' : Line N' q' m)
    (hA : ∀ j s t, s ≤ t → (N.qc (q 0)).arrivalF j s ≤ (N'.qc (q' 0)).arrivalF j t)
    (hS : ∀ i ≤ m, ∀ j s t, s ≤ t → (N.qc (q i)).serviceF j s ≤ (N'.qc (q' i)).serviceF j t)
    {b b' : Nat → Bool} {n n' : Net T R} {L L' : List (Net T R)}
    (h : NetTraj N b (LineOk (Downstream q m)) n L) (h' : NetTraj N' b' (LineOk (Downstream q' m)) n' L') {i : ℕ} (hi : i ≤ m)
    {r : ℕ} {p p' : (Nat × Nat) × T} {σ : ℕ} (hσ : σ = 0 ∨ σ = 2) (hp : (atStage σ (netStamps (q i) n L))[r]? = some p)
    (hp' : (atStage σ (netStamps (q' i) n' L'))[r]? = some p') : p.2 ≤ p'.2 := by
  have hdr : ∀ k, drawn (N.qc (q 0)).arrivalF 0 0 k ≤ drawn (N'.qc (q' 0)).arrivalF 0 0 k := by
    intro k
    induction k with
    | zero => exact le_rfl
    | succ k ih => exact hA _ _ _ ih
  have key : ∀ i ≤ m, ∀ r, lineTime N q i r ≤ lineTime N' q' i r := by
    intro i
    induction i with
    | zero => exact fun hi r => passage_le (hS 0 hi) (fun r => hdr _) r
    | succ i ih => exact fun hi r => passage_le (hS _ hi) (ih (by omega)) r
  obtain ⟨t1, t2⟩ := C135_line hN hmax hl h hi
  obtain ⟨t1', t2'⟩ := C135_line hN' hmax' hl' h' hi
  rcases hσ with rfl | rfl
  · rw [t1 r p hp, t1' r p' hp']
    cases i with
    | zero => exact hdr _
    | succ i => exact key i (by omega) r
  · rw [t2 r p hp, t2' r p' hp']
    exact key i hi r

/-- C137: if `service_f` of the queues of a line are functions of the time alone, monotone, and commute (as adding a constant
time does), the order of the queues does not matter: if two lines have the same arrivals, and the same functions at their
queues in whatever order, the `r`-th agent leaves the last queue of both at the same time. -/
theorem C137_order {N N' : NetCfg T R} (hN : N.OkA) (hN' : N'.OkA) (hmax : N.maxAgents = .inf)
    (hmax' : N'.maxAgents = .inf) {q q' : ℕ → Nat} {m : ℕ} (hl : Line N q m) (hl' : Line N' q' m)
    (hA : (N.qc (q 0)).arrivalF = (N'.qc (q' 0)).arrivalF) {f g : ℕ → T → T}
    (hf : ∀ i ≤ m, (N.qc (q i)).serviceF = fun _ => f i) (hg : ∀ i ≤ m, (N'.qc (q' i)).serviceF = fun _ => g i)
    (hm : ∀ i ≤ m, Monotone (f i)) (hc : ∀ i ≤ m, ∀ j ≤ m, Function.Commute (f i) (f j))
    (hfg : ((List.range (m + 1)).map f).Perm ((List.range (m + 1)).map g))
    {b b' : Nat → Bool} {n n' : Net T R} {L L' : List (Net T R)}
    (h : NetTraj N b (LineOk (Downstream q m)) n L) (h' : NetTraj N' b' (LineOk (Downstream q' m)) n' L')
    {r : ℕ} {p p' : (Nat × Nat) × T} (hp : (atStage 2 (netStamps (q m) n L))[r]? = some p)
    (hp' : (atStage 2 (netStamps (q' m) n' L'))[r]? = some p') : p.2 = p'.2 := by
  rw [(C135_line hN hmax hl h le_rfl).2 r p hp, (C135_line hN' hmax' hl' h' le_rfl).2 r p' hp', lineTime_foldl hf,
    lineTime_foldl hg, hA, foldl_passage hfg]
  · intro x hx
    obtain ⟨i, hi, rfl⟩ := List.mem_map.mp hx
    exact hm i (by simpa [Nat.lt_succ_iff] using hi)
  · intro x hx y hy
    obtain ⟨i, hi, rfl⟩ := List.mem_map.mp hx
    obtain ⟨j, hj, rfl⟩ := List.mem_map.mp hy
    exact hc i (by simpa [Nat.lt_succ_iff] using hi) j (by simpa [Nat.lt_succ_iff] using hj)

/-- Services of 2 and then 3, or of 3 and then 2: agents leave at 6 and 9, though they leave the first queue at other times. -/
example : (atStage 2 (netStamps 0 (rowAt 2 3 16) (rowPass 2 3 16))).map Prod.snd = [3, 5, 7, 9] ∧
    (atStage 2 (netStamps 0 (rowAt 3 2 16) (rowPass 3 2 16))).map Prod.snd = [4, 7, 10] ∧
    (atStage 2 (netStamps 1 (rowAt 2 3 16) (rowPass 2 3 16))).map Prod.snd = [6, 9] ∧
    (atStage 2 (netStamps 1 (rowAt 3 2 16) (rowPass 3 2 16))).map Prod.snd = [6, 9] ∧
    (atStage 2 (netStamps 1 (rowAt 3 3 16) (rowPass 3 3 16))).map Prod.snd = [7, 10] := by
  decide +kernel

example {r : ℕ} {p p' : (ℕ × ℕ) × ℕ∞} (hp : (atStage 2 (netStamps 1 (rowAt 2 3 16) (rowPass 2 3 16)))[r]? = some p)
    (hp' : (atStage 2 (netStamps 1 (rowAt 3 2 16) (rowPass 3 2 16)))[r]? = some p') : p.2 = p'.2 := by
  refine C137_order (rowOf_ok 2 3) (rowOf_ok 3 2) rfl rfl (rowOf_line 2 3) (rowOf_line 3 2) rfl
    (f := fun i t => t + if i = 0 then 2 else 3) (g := fun i t => t + if i = 0 then 3 else 2) (fun i hi => ?_) (fun i hi => ?_)
    (fun i _ _ _ h => add_le_add_left h _) (fun i _ j _ t => add_right_comm _ _ _) (.swap _ _ _)
    (rowAt_traj (m := 16) (by decide +kernel)) (rowAt_traj (m := 16) (by decide +kernel)) hp hp'
  · interval_cases i <;> rfl
  · interval_cases i <;> rfl

/-- Shorter services at the first queue. -/
example {r : ℕ} {p p' : (ℕ × ℕ) × ℕ∞} (hp : (atStage 2 (netStamps 1 (rowAt 2 3 16) (rowPass 2 3 16)))[r]? = some p)
    (hp' : (atStage 2 (netStamps 1 (rowAt 3 3 16) (rowPass 3 3 16)))[r]? = some p') : p.2 ≤ p'.2 := by
  refine C137_faster (rowOf_ok 2 3) (rowOf_ok 3 3) rfl rfl (rowOf_line 2 3) (rowOf_line 3 3)
    (fun _ _ _ h => add_le_add_left h _) (fun i hi _ s t h => ?_)
    (rowAt_traj (m := 16) (by decide +kernel)) (rowAt_traj (m := 16) (by decide +kernel)) (i := 1) le_rfl (.inr rfl) hp hp'
  interval_cases i
  · exact add_le_add h (by decide)
  · exact add_le_add_left h _

/-- The order does matter if services of one queue differ: two agents come at 0, one queue serves them for 4 and 0, the other
for 0 and 4. -/
example : passage (fun j t => t + if j = 1 then 4 else 0) (passage (fun j t => t + if j = 0 then 4 else 0) fun _ => 0) 1 = 8 ∧
    passage (fun j t => t + if j = 0 then 4 else 0) (passage (fun j t => t + if j = 1 then 4 else 0) fun _ => 0) 1 = 4 := by
  decide

end Verif.NetSpec
