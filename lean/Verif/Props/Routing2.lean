import Verif.Routing
import Mathlib.Algebra.Order.BigOperators.Group.List
import Mathlib.Algebra.BigOperators.Ring.List
import Mathlib.Algebra.Order.Field.Basic
import Mathlib.Data.Rat.Floor
import Mathlib.Tactic.FieldSimp
import Mathlib.Tactic.Ring
import Mathlib.Tactic.Positivity

/-! # Properties C34-C38: routing probabilities -/

set_option linter.unusedSectionVars false

namespace Verif.RoutingSpec

section Trans

variable {R : Type*} [LinearOrder R] [Zero R] [Add R]

/-- What makes one row of a dict unacceptable: unknown vertex; a vertex with out-edges whose values do not
add up to one; a negative value. -/
def RowBad (g : RGraph) (isOne : R → Bool) (v : Nat) (row : List (Nat × R)) : Prop :=
  g.nV ≤ v ∨ (g.targets v ≠ [] ∧ isOne ((row.map Prod.snd).foldl (· + ·) 0) = false) ∨
    ∃ e ∈ row, e.2 < 0

/-- What makes a matrix unacceptable. -/
def MatBad (g : RGraph) (isOne : R → Bool) (m : Mat R) : Prop :=
  ¬ (m.rows = g.nV ∧ m.cols = g.nV) ∨
  (∃ v < g.nV, g.targets v ≠ [] ∧ isOne (((List.range g.nV).map (m.get v)).foldl (· + ·) 0) = false) ∨
  ∃ v < g.nV, ∃ w < g.nV, m.get v w < 0

theorem badEntry_iff (g : RGraph) (isOne : R → Bool) (v : Nat) (row : List (Nat × R)) :
    badEntry g isOne v row = true ↔ RowBad g isOne v row := by
  unfold badEntry RowBad pySum
  simp only [Bool.or_eq_true, Bool.and_eq_true, Bool.not_eq_true', decide_eq_false_iff_not, not_lt,
    decide_eq_true_eq, List.any_eq_true, List.mem_map, List.length_pos_iff, exists_exists_and_eq_and, or_assoc]

theorem badMat_iff (g : RGraph) (isOne : R → Bool) (m : Mat R) :
    badMat g isOne m = true ↔ MatBad g isOne m := by
  unfold badMat MatBad pySum
  simp only [Bool.or_eq_true, Bool.and_eq_true, Bool.not_eq_true', Bool.and_eq_false_iff,
    decide_eq_false_iff_not, decide_eq_true_eq, List.any_eq_true, List.length_pos_iff, List.mem_range,
    or_assoc, not_and_or]

theorem setDict_err (g : RGraph) (isOne : R → Bool) (m : List (Nat × List (Nat × R))) (p : Probs R) :
    ((setDict g isOne p m).2 = some .valueError ∧ ∃ e ∈ m, RowBad g isOne e.1 e.2) ∨
    ((setDict g isOne p m).2 = none ∧ ∀ e ∈ m, ¬ RowBad g isOne e.1 e.2) := by
  induction m generalizing p with
  | nil => right; simp [setDict]
  | cons e m ih =>
    obtain ⟨v, row⟩ := e
    simp only [setDict]
    by_cases h : badEntry g isOne v row = true
    · left
      rw [if_pos h]
      exact ⟨rfl, _, List.mem_cons_self, (badEntry_iff g isOne v row).mp h⟩
    · rw [if_neg h]
      rcases ih (writeRow p v ((g.targets v).map (dictGet row))) with ⟨h1, e, h2, h3⟩ | ⟨h1, h2⟩
      · exact .inl ⟨h1, e, List.mem_cons_of_mem _ h2, h3⟩
      · refine .inr ⟨h1, fun e he => ?_⟩
        rcases List.mem_cons.mp he with rfl | he
        · exact fun hb => h ((badEntry_iff g isOne v row).mpr hb)
        · exact h2 e he

/-- C34: a dict is rejected, with ValueError, exactly if one of its rows is unacceptable. -/
theorem C34_dict (g : RGraph) (isOne : R → Bool) (p : Probs R) (m : List (Nat × List (Nat × R))) :
    ((setTransitions g isOne p (.dict m)).2 = some .valueError ↔ ∃ e ∈ m, RowBad g isOne e.1 e.2) ∧
    ((setTransitions g isOne p (.dict m)).2 = none ↔ ∀ e ∈ m, ¬ RowBad g isOne e.1 e.2) := by
  simp only [setTransitions]
  rcases setDict_err g isOne m p with ⟨h1, e, h2, h3⟩ | ⟨h1, h2⟩
  · rw [h1]
    exact ⟨⟨fun _ => ⟨e, h2, h3⟩, fun _ => rfl⟩, ⟨fun h => by simp at h, fun h => absurd h3 (h e h2)⟩⟩
  · rw [h1]
    exact ⟨⟨fun h => by simp at h, fun ⟨e, h3, h4⟩ => absurd h4 (h2 e h3)⟩, ⟨fun _ => h2, fun _ => rfl⟩⟩

/-- C34: a matrix is rejected, with ValueError and without any change, exactly if it is unacceptable. -/
theorem C34_matrix (g : RGraph) (isOne : R → Bool) (p : Probs R) (m : Mat R) :
    (MatBad g isOne m → setTransitions g isOne p (.mat m) = (p, some .valueError)) ∧
    (¬ MatBad g isOne m → (setTransitions g isOne p (.mat m)).2 = none) := by
  simp only [setTransitions, ← badMat_iff]
  exact ⟨fun h => by rw [if_pos h], fun h => by rw [if_neg h]⟩

/-- C34: an argument of another type raises TypeError and changes nothing. -/
theorem C34_other (g : RGraph) (isOne : R → Bool) (p : Probs R) :
    setTransitions g isOne p .other = (p, some .typeError) := rfl

/-! ## C35: reading back -/

theorem scatter_map (ts : List Nat) (f : Nat → R) (w : Nat) :
    scatter ts (ts.map f) w = if w ∈ ts then f w else 0 := by
  induction ts with
  | nil => simp [scatter]
  | cons t ts ih =>
    simp only [List.map_cons, scatter, ih, List.mem_cons]
    by_cases h1 : w ∈ ts
    · simp [h1]
    · by_cases h2 : w = t
      · subst h2; simp [h1]
      · simp [h1, h2]

theorem scatter_not_mem (ts : List Nat) (xs : List R) (w : Nat) (h : w ∉ ts) : scatter ts xs w = 0 := by
  induction ts generalizing xs with
  | nil => simp [scatter]
  | cons t ts ih =>
    simp only [List.mem_cons, not_or] at h
    cases xs with
    | nil => simp [scatter]
    | cons x xs => simp [scatter, h.1, h.2, ih xs h.2]

theorem zip_map_self (ts : List Nat) (f : Nat → R) : ts.zip (ts.map f) = ts.map fun w => (w, f w) := by
  induction ts with
  | nil => rfl
  | cons t ts ih => simp [ih]

theorem setDict_row_of_not_mem (g : RGraph) (isOne : R → Bool) (m : List (Nat × List (Nat × R)))
    (p : Probs R) (v : Nat) (hv : v ∉ m.map Prod.fst) : (setDict g isOne p m).1 v = p v := by
  induction m generalizing p with
  | nil => rfl
  | cons e m ih =>
    obtain ⟨k, row⟩ := e
    simp only [List.map_cons, List.mem_cons, not_or] at hv
    simp only [setDict]
    split
    · rfl
    · rw [ih _ hv.2]; simp [writeRow, hv.1]

theorem setDict_row_of_mem (g : RGraph) (isOne : R → Bool) (m : List (Nat × List (Nat × R)))
    (p : Probs R) (hnd : (m.map Prod.fst).Nodup) (hok : (setDict g isOne p m).2 = none)
    (v : Nat) (row : List (Nat × R)) (hv : (v, row) ∈ m) :
    (setDict g isOne p m).1 v = (g.targets v).map (dictGet row) := by
  induction m generalizing p with
  | nil => simp at hv
  | cons e m ih =>
    obtain ⟨k, r⟩ := e
    simp only [List.map_cons, List.nodup_cons] at hnd
    simp only [setDict] at hok ⊢
    split at hok
    · simp at hok
    · rename_i hb
      rw [if_neg hb]
      rcases List.mem_cons.mp hv with h | h
      · obtain ⟨rfl, rfl⟩ := Prod.mk.inj h
        rw [setDict_row_of_not_mem g isOne m _ v hnd.1]; simp [writeRow]
      · exact ih _ hnd.2 hok h

theorem writeMat_row (g : RGraph) (p : Probs R) (m : Mat R) (n v : Nat) :
    writeMat g p m n v = if v < n then (g.targets v).map (m.get v) else p v := by
  induction n with
  | zero => simp [writeMat]
  | succ n ih =>
    simp only [writeMat, writeRow]
    by_cases h : v = n
    · subst h; simp
    · rw [if_neg h, ih]
      by_cases h2 : v < n
      · rw [if_pos h2, if_pos (by omega)]
      · rw [if_neg h2, if_neg (by omega)]

/-- What is read back at vertex `v`: the matrix representation and the dict representation agree with `f` on
the edges, and the matrix is zero elsewhere. -/
def ReadsBack (g : RGraph) (p : Probs R) (v : Nat) (f : Nat → R) : Prop :=
  (∀ w ∈ g.targets v, (transitionsMat g p).get v w = f w) ∧
  (∀ w, w ∉ g.targets v → (transitionsMat g p).get v w = 0) ∧
  (v, (g.targets v).map fun w => (w, f w)) ∈ transitionsDict g p

theorem readsBack_of_row {g : RGraph} {p : Probs R} {v : Nat} (hv : v < g.nV) {f : Nat → R}
    (h : p v = (g.targets v).map f) : ReadsBack g p v f := by
  refine ⟨fun w hw => ?_, fun w hw => ?_, ?_⟩
  · simp [transitionsMat, h, scatter_map, hw]
  · simp [transitionsMat, h, scatter_map, hw]
  · simp only [transitionsDict, List.mem_map, List.mem_range]
    exact ⟨v, hv, by rw [h, zip_map_self]⟩

/-- C35: after an accepted matrix, `transitions` gives the entries of that matrix on all edges, in both
representations. -/
theorem C35_matrix (g : RGraph) (isOne : R → Bool) (p : Probs R) (m : Mat R)
    (hok : (setTransitions g isOne p (.mat m)).2 = none) (v : Nat) (hv : v < g.nV) :
    ReadsBack g (setTransitions g isOne p (.mat m)).1 v (m.get v) := by
  simp only [setTransitions] at hok ⊢
  split at hok
  · simp at hok
  · rename_i hb
    rw [if_neg hb]
    exact readsBack_of_row hv (by simp [writeMat_row, hv])

/-- C35: after an accepted dict, `transitions` gives at every mentioned vertex the values of its row, 0 for
the out-neighbours that the row does not mention. -/
theorem C35_dict (g : RGraph) (isOne : R → Bool) (p : Probs R) (m : List (Nat × List (Nat × R)))
    (hnd : (m.map Prod.fst).Nodup) (hok : (setTransitions g isOne p (.dict m)).2 = none)
    (v : Nat) (row : List (Nat × R)) (hrow : (row.map Prod.fst).Nodup) (hv : (v, row) ∈ m) :
    ∃ f : Nat → R, (∀ w x, (w, x) ∈ row → f w = x) ∧ (∀ w, w ∉ row.map Prod.fst → f w = 0) ∧
      ReadsBack g (setTransitions g isOne p (.dict m)).1 v f := by
  have hvn : v < g.nV := by
    have := ((C34_dict g isOne p m).2.mp hok) _ hv
    by_contra h
    exact this (.inl (not_lt.mp h))
  refine ⟨dictGet row, ?_, ?_, readsBack_of_row hvn (setDict_row_of_mem g isOne m p hnd hok v row hv)⟩
  · clear hv
    intro w x hx
    induction row with
    | nil => simp at hx
    | cons e row ih =>
      obtain ⟨i, y⟩ := e
      simp only [List.map_cons, List.nodup_cons] at hrow
      simp only [dictGet]
      rcases List.mem_cons.mp hx with h | h
      · obtain ⟨rfl, rfl⟩ := Prod.mk.inj h; simp
      · rw [if_neg]
        · exact ih hrow.2 h
        · rintro rfl; exact hrow.1 (List.mem_map.mpr ⟨_, h, rfl⟩)
  · clear hv hrow
    intro w hw
    induction row with
    | nil => rfl
    | cons e row ih =>
      obtain ⟨i, y⟩ := e
      simp only [List.map_cons, List.mem_cons, not_or] at hw
      simp only [dictGet]
      rw [if_neg (Ne.symm hw.1)]
      exact ih hw.2

/-- C35: vertices that a dict does not mention keep their rows in both representations, also if the dict is
rejected. -/
theorem C35_unmentioned (g : RGraph) (isOne : R → Bool) (p : Probs R) (m : List (Nat × List (Nat × R)))
    (v : Nat) (hv : v ∉ m.map Prod.fst) :
    (∀ w, (transitionsMat g (setTransitions g isOne p (.dict m)).1).get v w = (transitionsMat g p).get v w) ∧
    ∀ row, (v, row) ∈ transitionsDict g (setTransitions g isOne p (.dict m)).1 ↔
      (v, row) ∈ transitionsDict g p := by
  have h : (setTransitions g isOne p (.dict m)).1 v = p v := setDict_row_of_not_mem g isOne m p v hv
  refine ⟨fun w => by simp only [transitionsMat, h], fun row => ?_⟩
  simp only [transitionsDict, List.mem_map, List.mem_range, Prod.mk.injEq]
  constructor
  · rintro ⟨a, h1, rfl, h3⟩; exact ⟨a, h1, rfl, by rw [← h3, h]⟩
  · rintro ⟨a, h1, rfl, h3⟩; exact ⟨a, h1, rfl, by rw [← h3, h]⟩

/-! ## C37 -/

/-- C37 (in full false for dicts, see `C37_not_atomic`): a rejected matrix, an argument of another type, and
a dict rejected because of its first row leave the routing probabilities exactly as they were; a rejected
dict leaves every vertex untouched except those mentioned before the first unacceptable row.
Missing: a dict whose unacceptable row comes after acceptable ones does change the routing. -/
theorem C37_partial (g : RGraph) (isOne : R → Bool) (p : Probs R) (arg : TransArg R)
    (hrej : (setTransitions g isOne p arg).2 ≠ none) :
    (∀ m, arg ≠ .dict m) ∧ (setTransitions g isOne p arg).1 = p ∨
    ∃ good bad rest, arg = .dict (good ++ bad :: rest) ∧ RowBad g isOne bad.1 bad.2 ∧
      (∀ e ∈ good, ¬ RowBad g isOne e.1 e.2) ∧
      (∀ v, v ∉ good.map Prod.fst → (setTransitions g isOne p arg).1 v = p v) ∧
      (good = [] → (setTransitions g isOne p arg).1 = p) := by
  cases arg with
  | other => exact .inl ⟨by simp, rfl⟩
  | mat m =>
    left
    refine ⟨by simp, ?_⟩
    by_cases h : MatBad g isOne m
    · rw [(C34_matrix g isOne p m).1 h]
    · exact absurd ((C34_matrix g isOne p m).2 h) hrej
  | dict m =>
    right
    have key : ∃ good bad rest, m = good ++ bad :: rest ∧ RowBad g isOne bad.1 bad.2 ∧
        (∀ e ∈ good, ¬ RowBad g isOne e.1 e.2) ∧
        (∀ v, v ∉ good.map Prod.fst → (setDict g isOne p m).1 v = p v) := by
      simp only [setTransitions] at hrej
      induction m generalizing p with
      | nil => simp [setDict] at hrej
      | cons e m ih =>
        obtain ⟨k, row⟩ := e
        simp only [setDict] at hrej ⊢
        by_cases h : badEntry g isOne k row = true
        · rw [if_pos h]
          exact ⟨[], (k, row), m, rfl, (badEntry_iff g isOne k row).mp h, by simp, by simp⟩
        · rw [if_neg h] at hrej ⊢
          obtain ⟨good, bad, rest, h1, h2, h3, h4⟩ := ih _ hrej
          refine ⟨(k, row) :: good, bad, rest, by rw [h1]; rfl, h2, ?_, ?_⟩
          · intro e he
            rcases List.mem_cons.mp he with rfl | he
            · exact fun hb => h ((badEntry_iff g isOne k row).mpr hb)
            · exact h3 e he
          · intro v hv
            simp only [List.map_cons, List.mem_cons, not_or] at hv
            rw [h4 v hv.2]; simp [writeRow, hv.1]
    obtain ⟨good, bad, rest, h1, h2, h3, h4⟩ := key
    refine ⟨good, bad, rest, by rw [h1], h2, h3, h4, fun hg => ?_⟩
    subst hg
    exact funext fun v => h4 v (by simp)

end Trans

/-- Two vertices with edges in both directions and to a third. -/
def g3 : RGraph where
  nV := 3
  targets v := if v = 0 then [1, 2] else if v = 1 then [0, 2] else []

def isOneQ (x : ℚ) : Bool := decide (x = 1)

/-- Finding F9: a dict that is rejected because of its second row has already changed the first row. -/
theorem C37_not_atomic :
    (setTransitions g3 isOneQ (initProbs g3) (.dict [(0, [(1, 1)]), (1, [(0, 2)])])).2 = some .valueError ∧
    (setTransitions g3 isOneQ (initProbs g3) (.dict [(0, [(1, 1)]), (1, [(0, 2)])])).1 0 = [1, 0] ∧
    (initProbs g3 : Probs ℚ) 0 = [1/2, 1/2] := by
  decide +kernel

/-- An accepted dict and an accepted matrix, read back. -/
example :
    (setTransitions g3 isOneQ (initProbs g3) (.dict [(0, [(1, 1)])])).2 = none ∧
    (transitionsMat g3 (setTransitions g3 isOneQ (initProbs g3) (.dict [(0, [(1, 1)])])).1).get 0 1 = 1 ∧
    (setTransitions g3 isOneQ (initProbs g3) (.mat ⟨3, 3, fun v w => if v + w = 1 then 1 else 0⟩)).2 = none ∧
    (setTransitions g3 isOneQ (initProbs g3) (.mat ⟨3, 2, fun v w => if v + w = 1 then 1 else 0⟩)).2
      = some .valueError := by
  decide +kernel

end Verif.RoutingSpec
