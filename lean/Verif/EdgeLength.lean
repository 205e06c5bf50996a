import Verif.Graph
import Mathlib.Analysis.SpecialFunctions.Complex.Arg

/-!
# Model of the lengths of edges: `_calculate_distance` and `add_edge_lengths`

SIMPLIFIED: real numbers instead of floats; `np.round(·, 3)` is an argument. `a` is never above 1 here, so `sqrt(1 - a)` is
not the `nan` that rounding could make it.
-/

namespace Verif

/-- `np.arctan2(y, x)` (numpy): the angle of the point `(x, y)`. -/
noncomputable def arctan2 (y x : ℝ) : ℝ := Complex.arg ⟨x, y⟩

/-- `a`, graph_functions.py line 15. -/
noncomputable def haversineA (p q : ℝ × ℝ) : ℝ :=
  Real.sin ((q.1 - p.1) / 2) ^ 2 + Real.cos p.1 * Real.cos q.1 * Real.sin ((q.2 - p.2) / 2) ^ 2

/-- `_calculate_distance(latlon1, latlon2)`, graph_functions.py lines 7-17. -/
noncomputable def calculateDistance (p q : ℝ × ℝ) : ℝ :=
  2 * Real.pi * 6371 * arctan2 √(haversineA p q) √(1 - haversineA p q) / 180

section

variable {A : Type*}

/-- The loop of `add_edge_lengths`, graph_preparation.py lines 41-44: `pos` are the positions of the vertices that have one;
unpacking `None` is a TypeError (graph_functions.py lines 10-11). -/
noncomputable def fillLengths (pos : Dict Nat (ℝ × ℝ)) (round : ℝ → ℝ) :
    List (Nat × Nat) → Dict (Nat × Nat) (Option ℝ) → Except Err (Dict (Nat × Nat) (Option ℝ))
  | [], d => .ok d
  | e :: es, d =>
    match Dict.get? pos e.2, Dict.get? pos e.1 with
    | some p, some q => fillLengths pos round es (Dict.set d e (some (round (calculateDistance p q))))
    | _, _ => .error .typeError

/-- `add_edge_lengths(g)`, graph_preparation.py lines 38-46: the property `edge_length` of the edges; it is None for every
edge first (graph_wrapper.py lines 306-310). -/
noncomputable def addEdgeLengths (g : QGraph A) (pos : Dict Nat (ℝ × ℝ)) (round : ℝ → ℝ) :
    Except Err (Dict (Nat × Nat) (Option ℝ)) :=
  fillLengths pos round g.adj.edges (g.adj.edges.map fun e => (e, none))

end

end Verif
