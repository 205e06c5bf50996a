import Verif.Queue
import Mathlib.Data.List.Sort
import Mathlib.Algebra.Order.Monoid.Defs
import Mathlib.Data.Prod.Lex

/-! # `fetch_data` and `poisson_random_measure` -/

namespace Verif

/-- A row of the array returned by `fetch_data`: the five recorded columns and the edge index,
queue_servers.py lines 531-534. SIMPLIFIED: integers are not converted to float. -/
structure FRow (T : Type*) where
  row : Row T
  qid : Nat
deriving DecidableEq

section

variable {T : Type*} [LinearOrder T]

/-- Comparison used by `np.sort(dat, order='a')`: by arrival, ties broken by the remaining fields in the
order of the dtype (numpy's documented behaviour), queue_servers.py lines 536-545. -/
def FRow.le (x y : FRow T) : Prop :=
  x.row.arr < y.row.arr ∨ (x.row.arr = y.row.arr ∧
  (x.row.start < y.row.start ∨ (x.row.start = y.row.start ∧
  (x.row.dep < y.row.dep ∨ (x.row.dep = y.row.dep ∧
  (x.row.nq < y.row.nq ∨ (x.row.nq = y.row.nq ∧
  (x.row.nsys < y.row.nsys ∨ (x.row.nsys = y.row.nsys ∧ x.qid ≤ y.qid)))))))))

instance : DecidableRel (FRow.le (T := T)) := fun x y => by unfold FRow.le; infer_instance

theorem le_iff_lex (x y : FRow T) : FRow.le x y ↔
    toLex (x.row.arr, toLex (x.row.start, toLex (x.row.dep, toLex (x.row.nq, toLex (x.row.nsys, x.qid))))) ≤
    toLex (y.row.arr, toLex (y.row.start, toLex (y.row.dep, toLex (y.row.nq, toLex (y.row.nsys, y.qid))))) := by
  simp only [FRow.le, Prod.Lex.toLex_le_toLex]

instance : Std.Total (FRow.le (T := T)) := ⟨fun x y => by
  rw [le_iff_lex, le_iff_lex]; exact le_total _ _⟩

instance : IsTrans (FRow T) FRow.le := ⟨fun x y z => by
  rw [le_iff_lex, le_iff_lex, le_iff_lex]; exact le_trans⟩

instance : Std.Antisymm (FRow.le (T := T)) := ⟨fun x y h1 h2 => by
  rw [le_iff_lex] at h1 h2
  have := le_antisymm h1 h2
  simp only [EmbeddingLike.apply_eq_iff_eq, Prod.mk.injEq] at this
  obtain ⟨⟨a, b, d, e, f⟩, g⟩ := x
  obtain ⟨⟨a', b', d', e', f'⟩, g'⟩ := y
  simp only at this
  obtain ⟨rfl, rfl, rfl, rfl, rfl, rfl⟩ := this
  rfl⟩

/-- `for d in self.data.values(): qdata.extend(d)`, queue_servers.py lines 527-529. -/
def allRows (d : Data T) : List (Row T) := d.flatMap Prod.snd

/-- `fetch_data()`, queue_servers.py lines 527-547. `np.sort` is modelled by insertion sort. -/
def fetchData (c : QCfg T) (s : QS T) : List (FRow T) :=
  ((allRows s.data).map fun r => ⟨r, c.edge.idx⟩).insertionSort FRow.le

end

section

variable {T : Type*} [LinearOrder T] [Add T] [Mul T] [Div T] [One T]

/-- The loop of `poisson_random_measure`, queue_servers.py lines 77-79, with at most `fuel` tests.
`expo n scale` and `unif n` are the results of the n-th calls of `exponential(scale)` and `uniform()`. -/
def thinLoop (rateMax : T) (rate : T → T) (expo : Nat → T → T) (unif : Nat → T) :
    Nat → Nat → T → Option T
  | 0, _, _ => none
  | fuel + 1, i, t =>
    if rateMax * unif i > rate t then
      thinLoop rateMax rate expo unif fuel (i + 1) (t + expo (i + 1) (1 / rateMax))
    else some t

/-- `poisson_random_measure(t, rate, rate_max)`, queue_servers.py lines 75-80. -/
def poissonRandomMeasure (rateMax : T) (rate : T → T) (expo : Nat → T → T) (unif : Nat → T)
    (fuel : Nat) (t : T) : Option T :=
  thinLoop rateMax rate expo unif fuel 0 (t + expo 0 (1 / rateMax))

end

end Verif
