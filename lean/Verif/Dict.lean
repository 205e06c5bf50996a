import Mathlib.Data.List.Nodup
import Mathlib.Data.List.Perm.Basic

/-! # Python dicts

A dict is the list of its items in insertion order; keys are distinct in every dict considered. -/

namespace Verif

/-- `dict.items()` -/
abbrev Dict (K V : Type*) := List (K × V)

namespace Dict

variable {K V W : Type*} [DecidableEq K]

/-- `d.keys()` -/
def keys (d : Dict K V) : List K := d.map Prod.fst

/-- `d.get(k)` -/
def get? (d : Dict K V) (k : K) : Option V :=
  match d with
  | [] => none
  | (i, x) :: d => if i = k then some x else get? d k

/-- `d[k] = x` -/
def set (d : Dict K V) (k : K) (x : V) : Dict K V :=
  match d with
  | [] => [(k, x)]
  | (i, y) :: d => if i = k then (i, x) :: d else (i, y) :: set d k x

/-- Keys are distinct. -/
def Ok (d : Dict K V) : Prop := (keys d).Nodup

instance (d : Dict K V) : Decidable (Ok d) := by unfold Ok; infer_instance

omit [DecidableEq K] in
@[simp] theorem keys_nil : keys ([] : Dict K V) = [] := rfl

omit [DecidableEq K] in
@[simp] theorem keys_cons (p : K × V) (d : Dict K V) : keys (p :: d) = p.1 :: keys d := rfl

theorem get?_isSome {d : Dict K V} {k : K} : (get? d k).isSome ↔ k ∈ keys d := by
  induction d with
  | nil => simp [get?]
  | cons p d ih =>
    obtain ⟨i, x⟩ := p
    simp only [get?, keys_cons, List.mem_cons]
    split
    · rename_i h; simp [h]
    · rename_i h; rw [ih]; simp [Ne.symm h]

theorem get?_eq_none {d : Dict K V} {k : K} : get? d k = none ↔ k ∉ keys d := by
  rw [← get?_isSome]; cases get? d k <;> simp

theorem get?_set (d : Dict K V) (k : K) (x : V) (j : K) :
    get? (set d k x) j = if j = k then some x else get? d j := by
  induction d with
  | nil => simp only [set, get?]; simp [eq_comm]
  | cons p d ih =>
    obtain ⟨i, y⟩ := p
    simp only [set]
    split
    · rename_i h
      subst h
      simp only [get?]
      by_cases hj : i = j
      · simp [hj]
      · simp [hj, Ne.symm hj]
    · rename_i h
      simp only [get?, ih]
      by_cases hj : i = j
      · subst hj; simp [h]
      · simp [hj]

theorem mem_keys_set {d : Dict K V} {k : K} {x : V} {j : K} :
    j ∈ keys (set d k x) ↔ j = k ∨ j ∈ keys d := by
  rw [← get?_isSome, get?_set, ← get?_isSome]
  split <;> simp [*]

theorem keys_set (d : Dict K V) (k : K) (x : V) :
    keys (set d k x) = if k ∈ keys d then keys d else keys d ++ [k] := by
  induction d with
  | nil => simp [set]
  | cons p d ih =>
    obtain ⟨i, y⟩ := p
    simp only [set]
    split
    · rename_i h; simp [h]
    · rename_i h
      rw [keys_cons, ih, keys_cons]
      simp only [List.mem_cons, Ne.symm h, false_or]
      split <;> simp

theorem Ok.set {d : Dict K V} (h : Ok d) (k : K) (x : V) : Ok (set d k x) := by
  unfold Ok at *
  rw [keys_set]
  split
  · exact h
  · rename_i hk
    exact List.nodup_append.mpr ⟨h, by simp, by rintro a ha b hb rfl; simp at hb; exact hk (hb ▸ ha)⟩

theorem mem_of_get? {d : Dict K V} {k : K} {x : V} (h : get? d k = some x) : (k, x) ∈ d := by
  induction d with
  | nil => simp [get?] at h
  | cons p d ih =>
    obtain ⟨i, y⟩ := p
    simp only [get?] at h
    split at h
    · rename_i hi; simp only [Option.some.injEq] at h; subst h hi; simp
    · exact List.mem_cons_of_mem _ (ih h)

theorem get?_of_mem {d : Dict K V} (hd : Ok d) {k : K} {x : V} (h : (k, x) ∈ d) : get? d k = some x := by
  induction d with
  | nil => simp at h
  | cons p d ih =>
    obtain ⟨i, y⟩ := p
    unfold Ok at hd
    simp only [keys_cons, List.nodup_cons] at hd
    simp only [get?]
    rcases List.mem_cons.mp h with h | h
    · simp only [Prod.mk.injEq] at h; simp [h.1, h.2]
    · have hk : k ∈ keys d := List.mem_map.mpr ⟨_, h, rfl⟩
      rw [if_neg (by rintro rfl; exact hd.1 hk)]
      exact ih hd.2 h

theorem mem_iff {d : Dict K V} (hd : Ok d) {k : K} {x : V} : (k, x) ∈ d ↔ get? d k = some x :=
  ⟨get?_of_mem hd, mem_of_get?⟩

/-- Changing the values. -/
theorem get?_map (d : Dict K V) (f : K → V → W) (k : K) :
    get? (d.map fun p => (p.1, f p.1 p.2)) k = (get? d k).map (f k) := by
  induction d with
  | nil => rfl
  | cons p d ih =>
    obtain ⟨i, y⟩ := p
    simp only [List.map_cons, get?]
    split
    · rename_i h; simp [h]
    · exact ih

omit [DecidableEq K] in
theorem keys_map (d : Dict K V) (f : K → V → W) : keys (d.map fun p => (p.1, f p.1 p.2)) = keys d := by
  simp [keys, Function.comp_def]

end Dict

end Verif
