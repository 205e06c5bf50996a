import Verif.EdgeLength
import Mathlib.Geometry.Euclidean.Angle.Unoriented.TriangleInequality
import Mathlib.Analysis.InnerProductSpace.PiL2
import Mathlib.Analysis.Real.Pi.Bounds
import Mathlib.Analysis.SpecialFunctions.Trigonometric.Inverse

/-! # Properties of the lengths of edges: C93 -/

namespace Verif

namespace EarthSpec

open InnerProductGeometry Real

/-! ## Specification -/

/-- The direction from the centre of the earth to the point of latitude `p.1` and longitude `p.2`, in radians. -/
noncomputable def dir (p : ℝ × ℝ) : EuclideanSpace ℝ (Fin 3) :=
  !₂[cos p.1 * cos p.2, cos p.1 * sin p.2, sin p.1]

/-- The distance of two points along the surface of a sphere with the radius of the earth in kilometers: the radius times the
angle at the centre. -/
noncomputable def onEarth (p q : ℝ × ℝ) : ℝ := 6371 * angle (dir p) (dir q)

/-- Degrees to radians. -/
noncomputable def rad (p : ℝ × ℝ) : ℝ × ℝ := (p.1 * (π / 180), p.2 * (π / 180))

/-! ## Haversines -/

theorem norm_dir (p : ℝ × ℝ) : ‖dir p‖ = 1 := by
  rw [EuclideanSpace.norm_eq, Fin.sum_univ_three]
  simp only [dir, norm_eq_abs, sq_abs]
  simp
  have h1 := sin_sq_add_cos_sq p.1
  have h2 := sin_sq_add_cos_sq p.2
  have : (cos p.1 * cos p.2) ^ 2 + (cos p.1 * sin p.2) ^ 2 + sin p.1 ^ 2 = 1 := by
    linear_combination (cos p.1) ^ 2 * h2 + h1
  linarith

theorem inner_dir (p q : ℝ × ℝ) : inner ℝ (dir p) (dir q) =
    sin p.1 * sin q.1 + cos p.1 * cos q.1 * cos (q.2 - p.2) := by
  rw [PiLp.inner_apply, Fin.sum_univ_three, cos_sub]
  simp [dir]
  ring

theorem haversine_eq (p q : ℝ × ℝ) : haversineA p q = (1 - inner ℝ (dir p) (dir q)) / 2 := by
  have h (x : ℝ) : sin (x / 2) ^ 2 = (1 - cos x) / 2 := by
    have := cos_two_mul (x / 2)
    rw [show 2 * (x / 2) = x by ring] at this
    have h2 := sin_sq_add_cos_sq (x / 2)
    linarith
  rw [inner_dir, haversineA, h, h, cos_sub q.1 p.1]
  ring

theorem inner_dir_mem (p q : ℝ × ℝ) : -1 ≤ inner ℝ (dir p) (dir q) ∧ inner ℝ (dir p) (dir q) ≤ 1 := by
  have h := abs_real_inner_le_norm (dir p) (dir q)
  rw [norm_dir, norm_dir, mul_one] at h
  exact abs_le.mp h

theorem haversine_mem (p q : ℝ × ℝ) : 0 ≤ haversineA p q ∧ haversineA p q ≤ 1 := by
  have := inner_dir_mem p q
  rw [haversine_eq]
  constructor <;> linarith

theorem arctan2_haversine {a : ℝ} (h0 : 0 ≤ a) (h1 : a ≤ 1) : 2 * arctan2 √a √(1 - a) = arccos (1 - 2 * a) := by
  have hn : ‖(⟨√(1 - a), √a⟩ : ℂ)‖ = 1 := by
    rw [Complex.norm_def, Complex.normSq_mk, mul_self_sqrt (by linarith), mul_self_sqrt h0]
    simp
  have he : arctan2 √a √(1 - a) = arcsin √a := by
    rw [arctan2, Complex.arg_of_re_nonneg (sqrt_nonneg _), hn, div_one]
  have hs1 : √a ≤ 1 := sqrt_le_one.mpr h1
  have hs0 : 0 ≤ √a := sqrt_nonneg a
  have hc : cos (2 * arcsin √a) = 1 - 2 * a := by
    rw [cos_two_mul, cos_sq', sin_arcsin (by linarith) hs1, sq_sqrt h0]
    ring
  rw [he, ← hc, arccos_cos]
  · have := arcsin_nonneg.mpr hs0; linarith
  · have := arcsin_le_pi_div_two √a; linarith

theorem angle_dir (p q : ℝ × ℝ) : angle (dir p) (dir q) = 2 * arctan2 √(haversineA p q) √(1 - haversineA p q) := by
  rw [arctan2_haversine (haversine_mem p q).1 (haversine_mem p q).2, angle, norm_dir, norm_dir, haversine_eq]
  congr 1
  ring

/-! ## C93: the lengths of edges -/

/-- C93 (part). The number `_calculate_distance` gives for two points whose coordinates are read as radians is `π / 180`
times their distance on the earth.

MISSING from the full property: that it is the distance; `C93_too_short` shows that in radians it is too small by this
factor for any two different points, and `C93_degrees` that in degrees it is no function of the points. -/
theorem C93_distance_partial (p q : ℝ × ℝ) : calculateDistance p q = π / 180 * onEarth p q := by
  rw [onEarth, angle_dir, calculateDistance]
  ring

/-- It is symmetric, zero from a point to itself, at most `π² · 6371 / 180`, and satisfies the triangle inequality; it is zero
only for points in the same direction from the centre. -/
theorem C93_metric (p q r : ℝ × ℝ) : calculateDistance p q = calculateDistance q p ∧ calculateDistance p p = 0 ∧
    0 ≤ calculateDistance p q ∧ calculateDistance p q ≤ π / 180 * (6371 * π) ∧
    (calculateDistance p q = 0 ↔ dir p = dir q) ∧
    calculateDistance p r ≤ calculateDistance p q + calculateDistance q r := by
  have hpi := pi_pos
  have hk : 0 < π / 180 * 6371 := by positivity
  have hd (a b : ℝ × ℝ) : calculateDistance a b = π / 180 * 6371 * angle (dir a) (dir b) := by
    rw [C93_distance_partial, onEarth]; ring
  have hne (a : ℝ × ℝ) : dir a ≠ 0 := by
    intro h; have := norm_dir a; rw [h] at this; simp at this
  simp only [hd]
  refine ⟨by rw [angle_comm], by rw [angle_self (hne p), mul_zero], ?_, ?_, ?_, ?_⟩
  · exact mul_nonneg hk.le (angle_nonneg _ _)
  · have := angle_le_pi (dir p) (dir q)
    calc _ ≤ π / 180 * 6371 * π := by gcongr
      _ = _ := by ring
  · rw [mul_eq_zero, or_iff_right hk.ne', angle_eq_zero_iff]
    constructor
    · rintro ⟨-, k, hk0, hq⟩
      have hn := norm_dir q
      rw [hq, norm_smul, norm_dir, mul_one, norm_eq_abs, abs_of_pos hk0] at hn
      rw [hq, hn, one_smul]
    · intro h
      exact ⟨hne p, 1, one_pos, by rw [h, one_smul]⟩
  · rw [← mul_add]
    gcongr
    exact angle_le_angle_add_angle _ _ _

/-- In radians the result is smaller than the distance for any two points in different directions. -/
theorem C93_too_short {p q : ℝ × ℝ} (h : dir p ≠ dir q) : calculateDistance p q < onEarth p q := by
  have hm := C93_metric p q q
  have h0 : 0 < onEarth p q := by
    have hne : calculateDistance p q ≠ 0 := fun hz => h (hm.2.2.2.2.1.mp hz)
    rw [C93_distance_partial] at hne
    have hn : 0 ≤ onEarth p q := mul_nonneg (by norm_num) (angle_nonneg _ _)
    exact lt_of_le_of_ne hn fun hz => hne (by rw [← hz, mul_zero])
  rw [C93_distance_partial]
  have : π / 180 < 1 := by have := pi_lt_four; rw [div_lt_one (by norm_num)]; linarith
  nlinarith

/-- In degrees the result is not the distance: there are two different points, seven degrees of longitude apart at most and
both on the equator, for which it is zero. -/
theorem C93_degrees : ∃ p q : ℝ × ℝ, p.1 = 0 ∧ q.1 = 0 ∧ 0 ≤ p.2 ∧ p.2 < q.2 ∧ q.2 < 7 ∧ calculateDistance p q = 0 ∧
    0 < onEarth (rad p) (rad q) := by
  have hpi := pi_pos
  have h4 : π < 3.15 := pi_lt_d2
  refine ⟨(0, 0), (0, 2 * π), rfl, rfl, le_refl _, by simpa using hpi, by norm_num at *; linarith, ?_, ?_⟩
  · refine (C93_metric _ _ (0, 0)).2.2.2.2.1.mpr ?_
    simp [dir]
  · refine mul_pos (by norm_num) (lt_of_le_of_ne (angle_nonneg _ _) fun h => ?_)
    have hc := congrArg cos h
    rw [cos_angle, norm_dir, norm_dir, inner_dir, cos_zero] at hc
    simp [rad] at hc
    have hlt : 2 * π * (π / 180) < 2 * π := by nlinarith
    have h0 : 0 < 2 * π * (π / 180) := by positivity
    have := (cos_eq_one_iff_of_lt_of_lt (by linarith) hlt).mp hc.symm
    linarith

/-! ## The graph -/

variable {A : Type*}

theorem fillLengths_keys {pos : Dict Nat (ℝ × ℝ)} {round : ℝ → ℝ} : ∀ {es : List (Nat × Nat)}
    {d d' : Dict (Nat × Nat) (Option ℝ)}, fillLengths pos round es d = .ok d' → (∀ e ∈ es, e ∈ Dict.keys d) →
    (∀ e, e ∈ Dict.keys d' ↔ e ∈ Dict.keys d) ∧ (∀ e, e ∉ es → Dict.get? d' e = Dict.get? d e) ∧
    ∀ e ∈ es, ∃ p q, Dict.get? pos e.1 = some p ∧ Dict.get? pos e.2 = some q ∧
      Dict.get? d' e = some (some (round (calculateDistance q p)))
  | [], d, d', h, _ => by
    simp only [fillLengths, Except.ok.injEq] at h
    subst h
    simp
  | e :: es, d, d', h, hk => by
    rw [fillLengths] at h
    split at h
    · rename_i q p hq hp
      obtain ⟨h1, h2, h3⟩ := fillLengths_keys h (fun x hx => Dict.mem_keys_set.mpr (Or.inr (hk x (List.mem_cons_of_mem _ hx))))
      refine ⟨fun x => ?_, fun x hx => ?_, fun x hx => ?_⟩
      · rw [h1, Dict.mem_keys_set]
        exact ⟨fun h => h.elim (fun he => he ▸ hk e List.mem_cons_self) id, Or.inr⟩
      · rw [h2 x fun hm => hx (List.mem_cons_of_mem _ hm), Dict.get?_set, if_neg (by rintro rfl; exact hx List.mem_cons_self)]
      · by_cases hm : x ∈ es
        · exact h3 x hm
        · obtain rfl : x = e := (List.mem_cons.mp hx).resolve_right hm
          exact ⟨p, q, hp, hq, by rw [h2 x hm, Dict.get?_set, if_pos rfl]⟩
    · simp at h

theorem fillLengths_ok {pos : Dict Nat (ℝ × ℝ)} {round : ℝ → ℝ} : ∀ {es : List (Nat × Nat)}
    {d : Dict (Nat × Nat) (Option ℝ)}, (∀ e ∈ es, e.1 ∈ Dict.keys pos ∧ e.2 ∈ Dict.keys pos) →
    ∃ d', fillLengths pos round es d = .ok d'
  | [], d, _ => ⟨d, rfl⟩
  | e :: es, d, h => by
    obtain ⟨p, hp⟩ := Option.isSome_iff_exists.mp (Dict.get?_isSome.mpr (h e List.mem_cons_self).1)
    obtain ⟨q, hq⟩ := Option.isSome_iff_exists.mp (Dict.get?_isSome.mpr (h e List.mem_cons_self).2)
    rw [fillLengths, hp, hq]
    exact fillLengths_ok fun x hx => h x (List.mem_cons_of_mem _ hx)

theorem fillLengths_error {pos : Dict Nat (ℝ × ℝ)} {round : ℝ → ℝ} : ∀ {es : List (Nat × Nat)}
    {d : Dict (Nat × Nat) (Option ℝ)} {x : Err}, fillLengths pos round es d = .error x → x = .typeError
  | [], d, x, h => by simp [fillLengths] at h
  | e :: es, d, x, h => by
    rw [fillLengths] at h
    split at h
    · exact fillLengths_error h
    · simpa using h.symm

/-- Every edge, and nothing else, gets a length: the distance of its ends, rounded. -/
theorem C93_edge_lengths {g : QGraph A} {pos : Dict Nat (ℝ × ℝ)} {round : ℝ → ℝ} {d : Dict (Nat × Nat) (Option ℝ)}
    (h : addEdgeLengths g pos round = .ok d) : (∀ e, e ∈ Dict.keys d ↔ e ∈ g.adj.edges) ∧ ∀ e ∈ g.adj.edges,
    ∃ p q, Dict.get? pos e.1 = some p ∧ Dict.get? pos e.2 = some q ∧
      Dict.get? d e = some (some (round (π / 180 * onEarth p q))) := by
  have hkeys : ∀ e, e ∈ Dict.keys (g.adj.edges.map fun e => (e, (none : Option ℝ))) ↔ e ∈ g.adj.edges := by
    intro e; simp [Dict.keys]
  obtain ⟨h1, -, h3⟩ := fillLengths_keys h fun e he => (hkeys e).mpr he
  refine ⟨fun e => (h1 e).trans (hkeys e), fun e he => ?_⟩
  obtain ⟨p, q, hp, hq, hd⟩ := h3 e he
  exact ⟨p, q, hp, hq, by rw [hd, (C93_metric q p p).1, C93_distance_partial]⟩

/-- It works exactly when both ends of every edge have a position, and a TypeError is raised otherwise. -/
theorem C93_when {g : QGraph A} {pos : Dict Nat (ℝ × ℝ)} {round : ℝ → ℝ} :
    ((∃ d, addEdgeLengths g pos round = .ok d) ↔ ∀ e ∈ g.adj.edges, e.1 ∈ Dict.keys pos ∧ e.2 ∈ Dict.keys pos) ∧
    ∀ x, addEdgeLengths g pos round = .error x → x = .typeError := by
  refine ⟨⟨?_, fun h => fillLengths_ok h⟩, fun x h => fillLengths_error h⟩
  rintro ⟨d, hd⟩ e he
  obtain ⟨p, q, hp, hq, -⟩ := (C93_edge_lengths hd).2 e he
  exact ⟨Dict.get?_isSome.mp (by rw [hp]; rfl), Dict.get?_isSome.mp (by rw [hq]; rfl)⟩

/-- The two edges between two vertices have the same length. -/
theorem C93_both_ways {g : QGraph A} {pos : Dict Nat (ℝ × ℝ)} {round : ℝ → ℝ} {d : Dict (Nat × Nat) (Option ℝ)}
    (h : addEdgeLengths g pos round = .ok d) {u v : Nat} (huv : (u, v) ∈ g.adj.edges) (hvu : (v, u) ∈ g.adj.edges) :
    Dict.get? d (u, v) = Dict.get? d (v, u) := by
  obtain ⟨p, q, hp, hq, h1⟩ := (C93_edge_lengths h).2 _ huv
  obtain ⟨p', q', hp', hq', h2⟩ := (C93_edge_lengths h).2 _ hvu
  rw [hq, Option.some.injEq] at hp'
  rw [hp, Option.some.injEq] at hq'
  subst hp' hq'
  rw [h1, h2, onEarth, onEarth, angle_comm]

/-! ## A concrete case -/

/-- Two vertices joined both ways, at a pole and on the equator. -/
def poleGraph : QGraph Unit := QGraph.ofAdj [(0, [(1, ⟨none, ()⟩)]), (1, [(0, ⟨none, ()⟩)])]

theorem pole_edges : poleGraph.adj.edges = [(0, 1), (1, 0)] := by decide +kernel

/-- The hypotheses are met, and the length is a quarter of a great circle times `π / 180`. -/
theorem C93_met : ∃ d, addEdgeLengths poleGraph [(0, (π / 2, 0)), (1, (0, 0))] id = .ok d ∧
    Dict.get? d (0, 1) = some (some (π / 180 * (6371 * (π / 2)))) := by
  obtain ⟨d, hd⟩ := (C93_when (g := poleGraph) (pos := [(0, (π / 2, 0)), (1, (0, 0))]) (round := id)).1.mpr (by
    rw [pole_edges]; simp)
  refine ⟨d, hd, ?_⟩
  obtain ⟨p, q, hp, hq, h⟩ := (C93_edge_lengths hd).2 (0, 1) (by rw [pole_edges]; simp)
  simp [Dict.get?] at hp hq
  subst hp hq
  rw [h, onEarth, angle, norm_dir, norm_dir, inner_dir]
  simp

end EarthSpec

end Verif
