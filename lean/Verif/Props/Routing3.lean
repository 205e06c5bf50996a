import Verif.Props.Routing2
import Mathlib.Algebra.BigOperators.Group.Finset.Basic

/-! # Properties C36 and C38: stochastic rows -/

set_option linter.unusedSectionVars false

namespace Verif.RoutingSpec

section Rows

variable {R : Type*} [LinearOrder R] [AddCommGroup R] [IsOrderedAddMonoid R]

/-- At every vertex with out-edges the probabilities are non-negative and add up to one, `isOne` being the
meaning of "is one" (`np.isclose` in the code). -/
def RowsOk (g : RGraph) (isOne : R → Bool) (p : Probs R) : Prop :=
  ∀ v < g.nV, g.targets v ≠ [] → (∀ x ∈ p v, 0 ≤ x) ∧ isOne (p v).sum = true

/-- The argument gives positive probability to edges of the graph only. -/
def Supported (g : RGraph) : TransArg R → Prop
  | .dict m => ∀ e ∈ m, (e.2.map Prod.fst).Nodup ∧ ∀ f ∈ e.2, f.1 ∉ g.targets e.1 → f.2 = 0
  | .mat m => ∀ v < g.nV, ∀ w < g.nV, w ∉ g.targets v → m.get v w = 0
  | .other => True

theorem pySum_eq (l : List R) : pySum l = l.sum := by
  have : ∀ (l : List R) (p : R), l.foldl (· + ·) p = p + l.sum := by
    intro l
    induction l with
    | nil => simp
    | cons x l ih => intro p; rw [List.foldl_cons, ih, List.sum_cons, add_assoc]
  rw [pySum, this, zero_add]

theorem dictGet_eq_zero (row : List (Nat × R)) (w : Nat) (h : w ∉ row.map Prod.fst) : dictGet row w = 0 := by
  induction row with
  | nil => rfl
  | cons e row ih =>
    obtain ⟨i, y⟩ := e
    simp only [List.map_cons, List.mem_cons, not_or] at h
    simp only [dictGet]
    rw [if_neg (Ne.symm h.1)]
    exact ih h.2

theorem dictGet_nonneg (row : List (Nat × R)) (h : ∀ e ∈ row, 0 ≤ e.2) (w : Nat) : 0 ≤ dictGet row w := by
  induction row with
  | nil => exact le_rfl
  | cons e row ih =>
    simp only [dictGet]
    split
    · exact h e List.mem_cons_self
    · exact ih fun e he => h e (List.mem_cons_of_mem _ he)

theorem sum_indicator (ts : List Nat) (hnd : ts.Nodup) (i : Nat) (x : R) :
    (ts.map fun w => if i = w then x else 0).sum = if i ∈ ts then x else 0 := by
  induction ts with
  | nil => simp
  | cons t ts ih =>
    rw [List.nodup_cons] at hnd
    rw [List.map_cons, List.sum_cons, ih hnd.2]
    by_cases h : i = t
    · subst h; simp [hnd.1]
    · simp [h]

theorem sum_dictGet (ts : List Nat) (hnd : ts.Nodup) (row : List (Nat × R)) (hrow : (row.map Prod.fst).Nodup)
    (hsup : ∀ f ∈ row, f.1 ∉ ts → f.2 = 0) :
    (ts.map (dictGet row)).sum = (row.map Prod.snd).sum := by
  induction row with
  | nil =>
    have : ts.map (dictGet ([] : List (Nat × R))) = ts.map fun _ => (0 : R) := rfl
    rw [this]; simp
  | cons e row ih =>
    obtain ⟨i, x⟩ := e
    simp only [List.map_cons, List.nodup_cons] at hrow
    have h1 : ts.map (dictGet ((i, x) :: row)) =
        ts.map fun w => (if i = w then x else 0) + dictGet row w := by
      refine List.map_congr_left fun w _ => ?_
      simp only [dictGet]
      by_cases h : i = w
      · subst h; simp [dictGet_eq_zero row i hrow.1]
      · simp [h]
    rw [h1, List.sum_map_add, sum_indicator ts hnd, ih hrow.2 fun f hf => hsup f (List.mem_cons_of_mem _ hf)]
    rw [List.map_cons, List.sum_cons]
    by_cases h : i ∈ ts
    · rw [if_pos h]
    · rw [if_neg h, hsup (i, x) List.mem_cons_self h]

theorem sum_range_eq (ts : List Nat) (hnd : ts.Nodup) (n : Nat) (hlt : ∀ w ∈ ts, w < n) (f : Nat → R)
    (h0 : ∀ w < n, w ∉ ts → f w = 0) : ((List.range n).map f).sum = (ts.map f).sum := by
  rw [← List.sum_toFinset f hnd, ← List.sum_toFinset f List.nodup_range]
  refine (Finset.sum_subset (fun w hw => ?_) fun w hw hw' => ?_).symm
  · simp only [List.mem_toFinset, List.mem_range] at hw ⊢; exact hlt w hw
  · simp only [List.mem_toFinset, List.mem_range] at hw hw'; exact h0 w hw hw'

theorem targets_nodup {g : RGraph} (h : g.Ok) (v : Nat) : (g.targets v).Nodup :=
  (h v).imp fun h => Nat.ne_of_lt h

/-- One call of `set_transitions` keeps the rows stochastic, whether it is accepted or rejected, if the
argument puts no weight off the edges. -/
theorem rowsOk_set (g : RGraph) (hg : g.Ok) (hlt : ∀ v, ∀ w ∈ g.targets v, w < g.nV) (isOne : R → Bool)
    (p : Probs R) (arg : TransArg R) (hs : Supported g arg) (h : RowsOk g isOne p) :
    RowsOk g isOne (setTransitions g isOne p arg).1 := by
  cases arg with
  | other => exact h
  | mat m =>
    simp only [setTransitions]
    split
    · exact h
    · rename_i hb
      rw [badMat_iff] at hb
      simp only [MatBad, not_or, not_exists, not_and, not_lt] at hb
      obtain ⟨-, hb2, hb3⟩ := hb
      intro v hv hne
      simp only [writeMat_row, hv, if_true]
      constructor
      · intro x hx
        obtain ⟨w, hw, rfl⟩ := List.mem_map.mp hx
        exact hb3 v hv w (hlt v w hw)
      · have := hb2 v hv hne
        rw [Bool.not_eq_false] at this
        rw [← this]
        change _ = isOne (pySum _)
        rw [pySum_eq, sum_range_eq _ (targets_nodup hg v) g.nV (hlt v) _ (hs v hv)]
  | dict m =>
    simp only [setTransitions]
    simp only [Supported] at hs
    induction m generalizing p with
    | nil => exact h
    | cons e m ih =>
      obtain ⟨k, row⟩ := e
      simp only [setDict]
      split
      · exact h
      · rename_i hb
        rw [badEntry_iff] at hb
        simp only [RowBad, not_or, not_exists, not_and, not_lt, not_le] at hb
        obtain ⟨-, hb2, hb3⟩ := hb
        refine ih _ ?_ (fun e he => hs e (List.mem_cons_of_mem _ he))
        intro v hv hne
        simp only [writeRow]
        split
        · rename_i hvk
          subst hvk
          obtain ⟨hs1, hs2⟩ := hs (v, row) List.mem_cons_self
          constructor
          · intro x hx
            obtain ⟨w, -, rfl⟩ := List.mem_map.mp hx
            exact dictGet_nonneg row hb3 w
          · have := hb2 hne
            rw [Bool.not_eq_false] at this
            rw [← this]
            change _ = isOne (pySum _)
            rw [pySum_eq, sum_dictGet _ (targets_nodup hg v) row hs1 hs2]
        · exact h v hv hne

/-- C36 (in full false, see `C36_weight_off_the_edges`): if the rows are stochastic to begin with, they are
after any sequence of `set_transitions`, accepted or rejected, whose arguments put weight on edges of the
graph only. Missing: an accepted argument may put weight on pairs that are not edges, which is dropped. -/
theorem C36_partial (g : RGraph) (hg : g.Ok) (hlt : ∀ v, ∀ w ∈ g.targets v, w < g.nV) (isOne : R → Bool)
    (p : Probs R) (h : RowsOk g isOne p) (args : List (TransArg R)) (hs : ∀ a ∈ args, Supported g a) :
    RowsOk g isOne (args.foldl (fun p a => (setTransitions g isOne p a).1) p) := by
  induction args generalizing p with
  | nil => exact h
  | cons a args ih =>
    exact ih _ (rowsOk_set g hg hlt isOne p a (hs a List.mem_cons_self) h)
      fun b hb => hs b (List.mem_cons_of_mem _ hb)

end Rows

section Field

variable {R : Type*} [Field R] [LinearOrder R] [IsStrictOrderedRing R]

theorem sum_replicate_inv (n : Nat) (hn : n ≠ 0) : (List.replicate n (1 / (n : R))).sum = 1 := by
  rw [List.sum_replicate, nsmul_eq_mul]
  have : (n : R) ≠ 0 := Nat.cast_ne_zero.mpr hn
  field_simp

/-- C36: initially the rows are uniform, hence stochastic. -/
theorem C36_initial (g : RGraph) (isOne : R → Bool) (h1 : isOne 1 = true) :
    RowsOk g isOne (initProbs g) := by
  intro v _ hne
  constructor
  · intro x hx
    rw [List.eq_of_mem_replicate hx]
    positivity
  · rw [initProbs, sum_replicate_inv _ (by simpa using hne), h1]

/-! ## C38 -/

variable [FloorRing R]

theorem sum_map_div (l : List R) (s : R) : (l.map (· / s)).sum = l.sum / s := by
  induction l with
  | nil => simp
  | cons x l ih => rw [List.map_cons, List.sum_cons, List.sum_cons, ih, add_div]

/-- One generated row has as many entries as there are out-edges, is non-negative and adds up to one. -/
theorem genRow_spec (isZero : R → Bool) (hz : ∀ x, isZero x = false → x ≠ 0) (deg : Nat) (rnd : Nat → R)
    (hr : ∀ i, 0 ≤ rnd i) (pick : Nat) (hp : 1 < deg → pick < deg) :
    (genRow isZero deg rnd pick).length = deg ∧ (∀ x ∈ genRow isZero deg rnd pick, 0 ≤ x) ∧
    (deg ≠ 0 → (genRow isZero deg rnd pick).sum = 1) := by
  unfold genRow
  by_cases h1 : deg = 1
  · subst h1; simp
  · rw [if_neg h1]
    by_cases h2 : 1 < deg
    · rw [if_pos h2]
      have hnn : ∀ x ∈ (List.range deg).map fun i => (⌈rnd i * 100⌉ : R) / 100, (0 : R) ≤ x := by
        intro x hx
        obtain ⟨i, -, rfl⟩ := List.mem_map.mp hx
        have : (0 : ℤ) ≤ ⌈rnd i * 100⌉ := Int.ceil_nonneg (mul_nonneg (hr i) (by norm_num))
        have : (0 : R) ≤ ⌈rnd i * 100⌉ := by exact_mod_cast this
        positivity
      have hlen : ((List.range deg).map fun i => (⌈rnd i * 100⌉ : R) / 100).length = deg := by simp
      generalize ((List.range deg).map fun i => (⌈rnd i * 100⌉ : R) / 100) = l at hnn hlen
      have key : ∃ l', (if isZero l.sum = true then l.set pick 1 else l) = l' ∧ l'.length = deg ∧
          (∀ x ∈ l', 0 ≤ x) ∧ l'.sum ≠ 0 := by
        by_cases h3 : isZero l.sum = true
        · rw [if_pos h3]
          have hnn' : ∀ x ∈ l.set pick 1, 0 ≤ x := by
            intro x hx
            rcases List.mem_or_eq_of_mem_set hx with h | h
            · exact hnn x h
            · rw [h]; exact zero_le_one
          refine ⟨_, rfl, by simpa using hlen, hnn', ?_⟩
          have : (1 : R) ≤ (l.set pick 1).sum :=
            List.single_le_sum hnn' 1 (List.mem_set (by rw [hlen]; exact hp h2) 1)
          exact (zero_lt_one.trans_le this).ne'
        · rw [if_neg h3]
          exact ⟨_, rfl, hlen, hnn, hz _ (by simpa using h3)⟩
      obtain ⟨l', h4, h5, h6, h7⟩ := key
      simp only [h4]
      refine ⟨by simpa using h5, ?_, fun _ => by rw [sum_map_div, div_self h7]⟩
      intro x hx
      obtain ⟨y, hy, rfl⟩ := List.mem_map.mp hx
      exact div_nonneg (h6 y hy) (List.sum_nonneg h6)
    · rw [if_neg h2]
      have : deg = 0 := by omega
      subst this; simp

theorem map_scatter (ts : List Nat) (hnd : ts.Nodup) (xs : List R) (hlen : xs.length = ts.length) :
    ts.map (scatter ts xs) = xs := by
  induction ts generalizing xs with
  | nil => cases xs with
    | nil => rfl
    | cons x xs => simp at hlen
  | cons t ts ih =>
    cases xs with
    | nil => simp at hlen
    | cons x xs =>
      rw [List.nodup_cons] at hnd
      rw [List.map_cons]
      congr 1
      · simp [scatter, hnd.1]
      · conv_rhs => rw [← ih hnd.2 xs (by simpa using hlen)]
        refine List.map_congr_left fun w hw => ?_
        simp [scatter, hw]

theorem scatter_nonneg (ts : List Nat) (xs : List R) (h : ∀ x ∈ xs, 0 ≤ x) (w : Nat) :
    0 ≤ scatter ts xs w := by
  induction ts generalizing xs with
  | nil => simp [scatter]
  | cons t ts ih =>
    cases xs with
    | nil => simp [scatter]
    | cons x xs =>
      have := ih xs fun y hy => h y (List.mem_cons_of_mem _ hy)
      simp only [scatter]
      split
      · exact this
      · split
        · exact h x List.mem_cons_self
        · exact this

/-- C38: the generated matrix is non-negative, zero off the edges, and every row of a vertex with out-edges
adds up to one; for all draws. `isZero` is the meaning of `np.isclose(x, 0)`; it must not be false at 0. -/
theorem C38_row_stochastic (isZero : R → Bool) (hz : ∀ x, isZero x = false → x ≠ 0) (g : RGraph) (hg : g.Ok)
    (hlt : ∀ v, ∀ w ∈ g.targets v, w < g.nV) (rnd : Nat → Nat → R) (hr : ∀ v i, 0 ≤ rnd v i)
    (pick : Nat → Nat) (hp : ∀ v, 1 < (g.targets v).length → pick v < (g.targets v).length) :
    (∀ v w, 0 ≤ (genMatrix isZero g rnd pick).get v w) ∧
    (∀ v w, w ∉ g.targets v → (genMatrix isZero g rnd pick).get v w = 0) ∧
    ∀ v, g.targets v ≠ [] → ((List.range g.nV).map ((genMatrix isZero g rnd pick).get v)).sum = 1 := by
  refine ⟨fun v w => ?_, fun v w hw => ?_, fun v hv => ?_⟩
  · exact scatter_nonneg _ _ (genRow_spec isZero hz _ (rnd v) (hr v) (pick v) (hp v)).2.1 w
  · exact scatter_not_mem _ _ w hw
  · obtain ⟨h1, -, h3⟩ := genRow_spec isZero hz _ (rnd v) (hr v) (pick v) (hp v)
    rw [sum_range_eq _ (targets_nodup hg v) g.nV (hlt v)
      ((genMatrix isZero g rnd pick).get v) fun w _ hw => scatter_not_mem _ _ w hw]
    simp only [genMatrix]
    rw [map_scatter _ (targets_nodup hg v) _ h1]
    exact h3 (by simpa using hv)

end Field

/-- C38 and C34 together: what `generate_transition_matrix` returns is accepted by `set_transitions`. -/
theorem C38_accepted {R : Type*} [Field R] [LinearOrder R] [IsStrictOrderedRing R] [FloorRing R]
    (isZero isOne : R → Bool) (hz : ∀ x, isZero x = false → x ≠ 0) (h1 : isOne 1 = true)
    (g : RGraph) (hg : g.Ok) (hlt : ∀ v, ∀ w ∈ g.targets v, w < g.nV)
    (rnd : Nat → Nat → R) (hr : ∀ v i, 0 ≤ rnd v i)
    (pick : Nat → Nat) (hp : ∀ v, 1 < (g.targets v).length → pick v < (g.targets v).length) (p : Probs R) :
    (setTransitions g isOne p (.mat (genMatrix isZero g rnd pick))).2 = none := by
  obtain ⟨ha, hb, hc⟩ := C38_row_stochastic isZero hz g hg hlt rnd hr pick hp
  refine (C34_matrix g isOne p _).2 ?_
  simp only [MatBad, not_or, not_exists, not_and, not_lt]
  refine ⟨fun h => h rfl rfl, fun v _ hne => ?_, fun v _ w _ => ha v w⟩
  have : isOne (pySum ((List.range g.nV).map ((genMatrix isZero g rnd pick).get v))) = true := by
    rw [pySum_eq, hc v hne, h1]
  simpa [pySum] using this

theorem g3_ok : g3.Ok ∧ ∀ v, ∀ w ∈ g3.targets v, w < g3.nV := by
  constructor
  · intro v
    simp only [g3]
    split
    · simp
    · split <;> simp
  · intro v w
    simp only [g3]
    split
    · simp; omega
    · split
      · simp; omega
      · simp

/-- The hypotheses of C36 and C38 hold for the graph `g3`, the uniform rows and a dict. -/
example : RowsOk g3 isOneQ (initProbs g3) ∧ Supported g3 (.dict [(0, [(1, (1 : ℚ))])]) ∧
    (setTransitions g3 isOneQ (initProbs g3) (.dict [(0, [(1, 1)])])).1 0 = [1, 0] :=
  ⟨C36_initial g3 isOneQ (by decide +kernel), by simp [Supported, g3], by decide +kernel⟩

example : (genMatrix (fun x : ℚ => decide (x = 0)) g3 (fun _ i => if i = 0 then 1/4 else 1/2) (fun _ => 0)).get 0 2
    = 2/3 := by decide +kernel

/-- Finding F9: an accepted dict that puts its weight on a vertex that is not an out-neighbour leaves a row
of zeros. -/
theorem C36_weight_off_the_edges :
    (setTransitions g3 isOneQ (initProbs g3) (.dict [(0, [(0, 1)])])).2 = none ∧
    (setTransitions g3 isOneQ (initProbs g3) (.dict [(0, [(0, 1)])])).1 0 = [0, 0] := by
  decide +kernel

end Verif.RoutingSpec
