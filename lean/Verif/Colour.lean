import Verif.Queue
import Mathlib.Algebra.Order.Field.Basic
import Mathlib.Data.Int.Cast.Lemmas

/-!
# Colours

Model of `_current_color` (queue_servers.py lines 450-468 and 943-953, queue_extentions.py lines
178-203). `K` is an ordered field: floating point rounding is not modelled.
-/

namespace Verif

/-- Ways in which a colour is not a list of numbers: ZeroDivisionError, IndexError from `color[3] = ...`, or
(without an exception) components that are `nan`. -/
inductive ColErr
  | zeroDivision | index | nan
deriving DecidableEq, Repr

/-- The dict `colors`; `vertexPen` is the key `'vertex_pen_color'` of ResourceQueue
(queue_servers.py lines 271-276, queue_extentions.py lines 73-78). -/
structure Colours (K : Type*) where
  edgeLoop : List K
  edge : List K
  vertexFill : List K
  vertex : List K
  vertexPen : List K

section

variable {K : Type*} [Field K] [LinearOrder K]

/-- `tmp` of `QueueServer._current_color`, queue_servers.py lines 457-458: `sens` is
`coloring_sensitivity`. With infinitely many servers the divisor is infinite (`nan` if `sens` is zero). -/
def serverShade (sens : K) (servers : Cap) (nsys : Int) : Except ColErr K :=
  match servers with
  | .fin n =>
    let div := sens * (n : K) + 1
    if div = 0 then .error .zeroDivision else .ok (1 - min ((nsys : K) / div) 1)
  | .inf => if sens = 0 then .error .nan else .ok 1

/-- `color = [i * tmp for i in base]; color[3] = alpha`, queue_servers.py lines 461-465. -/
def shaded (base : List K) (tmp : K) (alpha : K) : Except ColErr (List K) :=
  if base.length ≤ 3 then .error .index else .ok ((base.map fun i => i * tmp).set 3 alpha)

/-- `QueueServer._current_color(which)`, queue_servers.py lines 450-468 (QueueServer, LossQueue and
InfoQueue). -/
def serverColour (col : Colours K) (loop : Bool) (sens : K) (servers : Cap) (nsys : Int) (which : Nat) :
    Except ColErr (List K) :=
  if which = 1 then .ok col.edgeLoop
  else if which = 2 then .ok col.vertex
  else
    match serverShade sens servers nsys with
    | .error e => .error e
    | .ok tmp => if loop then shaded col.vertexFill tmp 1 else shaded col.edge tmp (1 / 2)

/-- `NullQueue._current_color(which)`, queue_servers.py lines 943-953. -/
def nullColour (col : Colours K) (loop : Bool) (which : Nat) : Except ColErr (List K) :=
  if which = 1 then .ok col.edgeLoop
  else if which = 2 then .ok col.vertex
  else .ok (if loop then col.vertexFill else col.edge)

/-- `tmp` of `ResourceQueue._current_color`, queue_extentions.py lines 180-183 and 191-194: `servers` is
`num_servers`, `cap` is `max_servers`. -/
def resourceShade (servers cap : Cap) : Except ColErr K :=
  match servers, cap with
  | .fin n, .fin c =>
    let div : K := if c ≤ 1 then 5 else 3 * (c : K)
    .ok (9 / 10 - min ((n : K) / div) (9 / 10))
  | .fin _, .inf => .ok (9 / 10)
  | .inf, .fin _ => .ok 0
  | .inf, .inf => .error .nan

/-- `color = [i * tmp / 0.9 for i in base]; color[3] = alpha`, queue_extentions.py lines 185-186, 197-201. -/
def shaded9 (base : List K) (tmp : K) (alpha : K) : Except ColErr (List K) :=
  if base.length ≤ 3 then .error .index else .ok ((base.map fun i => i * tmp / (9 / 10)).set 3 alpha)

/-- `ResourceQueue._current_color(which)`, queue_extentions.py lines 178-203. -/
def resourceColour (col : Colours K) (loop : Bool) (servers cap : Cap) (which : Nat) :
    Except ColErr (List K) :=
  if which = 2 then .ok col.vertexPen
  else
    match (resourceShade servers cap : Except ColErr K) with
    | .error e => .error e
    | .ok tmp =>
      if which = 1 then shaded9 col.edgeLoop tmp 0
      else if loop then shaded9 col.vertexFill tmp 1 else shaded9 col.edge tmp (1 / 2)

/-- `_current_color(which)` of a queue in state `s`. -/
def currentColour {T : Type*} (c : QCfg T) (col : Colours K) (sens : K) (s : QS T) (which : Nat) :
    Except ColErr (List K) :=
  let loop := decide (c.edge.src = c.edge.tgt)
  match c.kind with
  | .server | .loss => serverColour col loop sens s.numServers s.numSystem which
  | .null => nullColour col loop which
  | .resource => resourceColour col loop s.numServers c.maxServers which

/-- The new fill colour of a vertex `v` that has no loop with a queue of its own,
`QueueNetwork._update_vertex_color` (queue_network.py lines 1560-1571): `ins` are the pairs of `num_system`
and `num_servers` of the queues on the edges into `v`, `base` is `colors['vertex_fill_color']`. An infinite
number of servers makes the divisor infinite. -/
def vertexColour (base : List K) (ins : List (Int × Cap)) : Except ColErr (List K) :=
  let nSy : Int := (ins.map Prod.fst).sum
  match ins.foldl (fun (cap : Cap) p => cap.add p.2) (.fin 0) with
  | .inf => shaded base 1 1
  | .fin cap =>
    let div : K := 2 * (cap : K) + 2
    if div = 0 then .error .zeroDivision else shaded base (1 - min ((nSy : K) / div) 1) 1

end

end Verif
