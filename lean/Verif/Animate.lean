import Verif.NetColour

/-!
# Model of `QueueNetwork.animate`, network/queue_network.py lines 411-587

How often matplotlib calls `update` is a number `m`.

SIMPLIFIED: matplotlib is installed; the figure and the arguments passed on to matplotlib are left out (the arrays of
`lines_scatter_args` are in `GraphDraw`; matplotlib gets the arrays themselves, so it always shows their present contents).
-/

namespace Verif.Net

variable {K : Type*} [Field K] [LinearOrder K]
variable {T R : Type*} [LinearOrder T] [OrderTop T] [Zero T] [LinearOrder R] [Add R]

/-- One call of `update`, queue_network.py lines 532-539; `lim` is `now + t`. -/
def frame (C : ColCfg K) (N : NetCfg T R) (lim : T) (n : Net T R) (g : GCol K) : Except SlowErr (Net T R × GCol K) :=
  if lim < n.t then .ok (n, g) else n.slowStep C N g

/-- `m` calls of `update`. -/
def frames (C : ColCfg K) (N : NetCfg T R) (lim : T) : Nat → Net T R → GCol K → Except SlowErr (Net T R × GCol K)
  | 0, n, g => .ok (n, g)
  | m + 1, n, g =>
    match n.frame C N lim g with
    | .error e => .error e
    | .ok (n, g) => frames C N lim m n g

/-- `now + t`, where `t` is infinity if it is None, queue_network.py lines 529-534. -/
def lastTime [Add T] (now : T) : Option T → T
  | none => ⊤
  | some d => now + d

/-- `animate(t=d)` with `m` calls of `update`, queue_network.py lines 502-505, 511, 529-539. -/
def animate [Add T] (C : ColCfg K) (N : NetCfg T R) (d : Option T) (m : Nat) (n : Net T R) (g : GCol K) :
    Except SlowErr (Net T R × GCol K) :=
  if n.initialized then
    match updateAll C N n.qs g with
    | .error e => .error (.col e)
    | .ok g => frames C N (lastTime n.t d) m n g
  else .error (.ev (.py .queueingToolError))

end Verif.Net
