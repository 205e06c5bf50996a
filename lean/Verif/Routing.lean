import Verif.Queue
import Mathlib.Algebra.Order.Floor.Ring
import Mathlib.Algebra.Field.Basic
import Mathlib.Algebra.BigOperators.Group.List.Basic

/-!
# Model of routing

`queues/choice.pyx`, `Agent.desired_destination`, `GreedyAgent.desired_destination` (agents.py),
`QueueNetwork.set_transitions`, `QueueNetwork.transitions`, the initial `_route_probs`
(network/queue_network.py) and `generate_transition_matrix` (graph/graph_generation.py).

Probabilities live in a type `R`. Where the code only adds and compares, `R` has a lawless addition and a
linear order, so no exactness of floating point arithmetic is assumed.
-/

namespace Verif

/-- What can go wrong in code compiled with `boundscheck(False)`. -/
inductive MemErr
  | outOfBounds
  | uninitialised
deriving DecidableEq, Repr

section Choice

variable {R : Type*} [LinearOrder R] [Add R]

/-- The loop `for k in range(1, n)` of `_choice`, choice.pyx lines 18-23: `m` iterations left, next index
`k`, partial sum `z`, `last` = current value of the C variable `k` (`none` = uninitialised). -/
def choiceLoop (pr : List R) (u : R) : Nat → Nat → R → Option Nat → Except MemErr Nat
  | 0, _, _, some k => .ok k
  | 0, _, _, none => .error .uninitialised
  | m + 1, k, z, _ =>
    match pr[k]? with
    | none => .error .outOfBounds
    | some p => if u ≤ z + p then .ok k else choiceLoop pr u m (k + 1) (z + p) (some k)

/-- `_choice(pr, u, n)`, choice.pyx lines 9-25. -/
def choice (pr : List R) (u : R) (n : Nat) : Except MemErr Nat :=
  match pr[0]? with
  | none => .error .outOfBounds
  | some p => if u ≤ p then .ok 0 else choiceLoop pr u (n - 1) 1 p none

end Choice

/-- The loop of `_argmin`, choice.pyx lines 34-38; `k` is the index in `a[1:]`, `amin` the C variable
(initially -1). -/
def argminLoop : List Nat → Nat → Nat → Int → Int
  | [], _, _, amin => amin
  | v :: a, k, minv, amin => if v < minv then argminLoop a (k + 1) v k else argminLoop a (k + 1) minv amin

/-- `_argmin(a)`, choice.pyx lines 31-39; `none` = access to `a[0]` of an empty list. -/
def argmin : List Nat → Option Int
  | [] => none
  | v :: a => some (argminLoop a 0 v (-1) + 1)

section Dest

variable {R : Type*} [LinearOrder R] [Add R]

/-- Result of choosing a destination: Python exceptions or memory errors. -/
inductive DestErr
  | py (e : Err)
  | mem (e : MemErr)
deriving DecidableEq, Repr

/-- `Agent.desired_destination`, agents.py lines 99-109: `out` = `network.out_edges[edge[1]]`,
`pr` = `network._route_probs[edge[1]]`, `u` the value of `uniform()` (drawn only if `n > 1`). -/
def agentDest (out : List Nat) (pr : List R) (u : R) : Except DestErr Nat :=
  if out.length ≤ 1 then
    match out[0]? with
    | none => .error (.py .indexError)
    | some e => .ok e
  else
    match choice pr u out.length with
    | .error e => .error (.mem e)
    | .ok k =>
      match out[k]? with
      | none => .error (.py .indexError)
      | some e => .ok e

/-- `GreedyAgent.desired_destination`, agents.py lines 165-167; `queued d` =
`network.edge2queue[d].number_queued()`. -/
def greedyDest (out : List Nat) (queued : Nat → Nat) : Except DestErr Nat :=
  match argmin (out.map queued) with
  | none => .error (.mem .outOfBounds)
  | some d =>
    match out[d.toNat]? with
    | none => .error (.py .indexError)
    | some e => .ok e

end Dest

/-! ## Routing probabilities -/

/-- The part of the graph used for routing: vertices `0 .. nV-1` and, for each vertex `v`, the list of
`e[1]` for `e` in `sorted(g.out_edges(v))`. -/
structure RGraph where
  nV : Nat
  targets : Nat → List Nat

/-- `sorted` out-edges of a DiGraph: strictly increasing targets. -/
def RGraph.Ok (g : RGraph) : Prop := ∀ v, (g.targets v).Pairwise (· < ·)

/-- A two-dimensional numpy array. -/
structure Mat (R : Type*) where
  rows : Nat
  cols : Nat
  get : Nat → Nat → R

/-- `dict.get(k, 0)` on an association list. -/
def dictGet {R : Type*} [Zero R] (d : List (Nat × R)) (k : Nat) : R :=
  match d with
  | [] => 0
  | (i, x) :: d => if i = k then x else dictGet d k

/-- Python's `sum`. -/
def pySum {R : Type*} [Zero R] [Add R] (l : List R) : R := l.foldl (· + ·) 0

section Trans

variable {R : Type*} [LinearOrder R] [Zero R] [Add R]

/-- `self._route_probs` -/
abbrev Probs (R : Type*) := Nat → List R

/-- Initial routing probabilities, queue_network.py lines 362-367. -/
def initProbs {R : Type*} [Div R] [One R] [NatCast R] (g : RGraph) : Probs R :=
  fun v => List.replicate (g.targets v).length (1 / ((g.targets v).length : R))

/-- `for k, e in enumerate(sorted(self.g.out_edges(key))): self._route_probs[key][k] = value.get(e[1], 0)`,
queue_network.py lines 1117-1118. -/
def writeRow (p : Probs R) (v : Nat) (row : List R) : Probs R := fun w => if w = v then row else p w

/-- The tests made for one key of a dict, queue_network.py lines 1105-1115. `isOne x` stands for
`np.isclose(x, 1)`. -/
def badEntry (g : RGraph) (isOne : R → Bool) (key : Nat) (value : List (Nat × R)) : Bool :=
  !decide (key < g.nV) ||
  (decide (0 < (g.targets key).length) && !isOne (pySum (value.map Prod.snd))) ||
  (value.map Prod.snd).any (fun x => decide (x < 0))

/-- The loop over `mat.items()`, queue_network.py lines 1104-1118. Returns the state also when an exception
is raised. -/
def setDict (g : RGraph) (isOne : R → Bool) (p : Probs R) :
    List (Nat × List (Nat × R)) → Probs R × Option Err
  | [] => (p, none)
  | (key, value) :: m =>
    if badEntry g isOne key value then (p, some .valueError)
    else setDict g isOne (writeRow p key ((g.targets key).map (dictGet value))) m

/-- The tests on a matrix, queue_network.py lines 1121-1130. SIMPLIFIED: `np.sum` adds from the left. -/
def badMat (g : RGraph) (isOne : R → Bool) (m : Mat R) : Bool :=
  !(decide (m.rows = g.nV) && decide (m.cols = g.nV)) ||
  (List.range g.nV).any (fun v => decide (0 < (g.targets v).length) &&
    !isOne (pySum ((List.range g.nV).map (m.get v)))) ||
  (List.range g.nV).any (fun v => (List.range g.nV).any fun w => decide (m.get v w < 0))

/-- `for k in range(self.nV): for j, e in ...: self._route_probs[k][j] = mat[k, e[1]]`,
queue_network.py lines 1132-1134. -/
def writeMat (g : RGraph) (p : Probs R) (m : Mat R) : Nat → Probs R
  | 0 => p
  | n + 1 => writeRow (writeMat g p m n) n ((g.targets n).map (m.get n))

/-- Argument of `set_transitions`. -/
inductive TransArg (R : Type*)
  | dict (m : List (Nat × List (Nat × R)))
  | mat (m : Mat R)
  | other

/-- `set_transitions(mat)`, queue_network.py lines 1103-1136. -/
def setTransitions (g : RGraph) (isOne : R → Bool) (p : Probs R) : TransArg R → Probs R × Option Err
  | .dict m => setDict g isOne p m
  | .mat m => if badMat g isOne m then (p, some .valueError) else (writeMat g p m g.nV, none)
  | .other => (p, some .typeError)

/-- `mat[v, ind] = values` for one row of zeros. -/
def scatter : List Nat → List R → Nat → R
  | i :: ind, x :: xs, w => if w ∈ ind then scatter ind xs w else if w = i then x else scatter ind xs w
  | _, _, _ => 0

/-- `transitions(return_matrix=True)`, queue_network.py lines 1521-1525. -/
def transitionsMat (g : RGraph) (p : Probs R) : Mat R where
  rows := g.nV
  cols := g.nV
  get v w := scatter (g.targets v) (p v) w

/-- `transitions(return_matrix=False)`, queue_network.py lines 1526-1530: for every vertex the dict
`{e[1]: p for e, p in zip(...)}`. -/
def transitionsDict (g : RGraph) (p : Probs R) : List (Nat × List (Nat × R)) :=
  (List.range g.nV).map fun v => (v, (g.targets v).zip (p v))

end Trans

section Gen

variable {R : Type*} [Field R] [LinearOrder R] [FloorRing R]

/-- One row of `generate_transition_matrix`, graph_generation.py lines 40-49. `rnd i` is the i-th entry
of `np.random.rand(deg)`, `pick` the value of `np.random.randint(deg)`, `isZero x` stands for
`np.isclose(x, 0)`. -/
def genRow (isZero : R → Bool) (deg : Nat) (rnd : Nat → R) (pick : Nat) : List R :=
  if deg = 1 then [1]
  else if 1 < deg then
    let probs := (List.range deg).map fun i => (⌈rnd i * 100⌉ : R) / 100
    let probs := if isZero probs.sum then probs.set pick 1 else probs
    probs.map (· / probs.sum)
  else []

/-- `generate_transition_matrix(g)`, graph_generation.py lines 36-51; row `v` uses the draws `rnd v`,
`pick v`. -/
def genMatrix (isZero : R → Bool) (g : RGraph) (rnd : Nat → Nat → R) (pick : Nat → Nat) : Mat R where
  rows := g.nV
  cols := g.nV
  get v w := scatter (g.targets v) (genRow isZero (g.targets v).length (rnd v) (pick v)) w

end Gen

end Verif
