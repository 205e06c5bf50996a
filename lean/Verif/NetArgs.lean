import Verif.Construct
import Verif.GraphNet

/-!
# The arguments of QueueNetwork

Model of `QueueNetwork.__init__` (queue_network.py lines 307-370) with `q_classes`, `q_args` and the dicts in `q_args`
as objects, which the constructor changes and which the user can use for several networks; and of the attribute
`blocking` (lines 310-311, 320, 376-384).
-/

namespace Verif

/-- `default_classes`, queue_network.py lines 291-297. -/
def dfltClasses : Dict Int QClass := [(0, .null), (1, .server), (2, .loss), (3, .loss), (4, .loss)]

/-- A dict of keyword arguments, a value of `q_args`: the arguments and the item `colors`. -/
structure KwObj (T : Type*) where
  kw : QKw T
  colors : Option DictRef

/-- The contents of all dict objects: dicts `q_classes`, dicts `q_args` (their values are objects), dicts of keyword
arguments, dicts of colours; objects from `next` on do not exist yet. -/
structure Objs (T K : Type*) where
  classes : Nat → Dict Int QClass
  args : Nat → Dict Int Nat
  kws : Nat → KwObj T
  colours : Dicts K
  next : Nat

section

variable {T K A : Type*} [Top T]

/-- Lines 331-335: the classes used, and `q_classes`, which is completed. -/
def takeClasses (o : Objs T K) : Option Nat → Objs T K × Dict Int QClass
  | none => (o, dfltClasses)
  | some r =>
    let d := complete (o.classes r) dfltClasses
    ({ o with classes := Function.update o.classes r d }, d)

/-- `q_args[k] = {}` for a key that is missing, lines 340-341 (and 338, one item). -/
def addEmpty (s : Objs T K × Dict Int Nat) (k : Int) : Objs T K × Dict Int Nat :=
  if (Dict.get? s.2 k).isSome then s
  else ({ s.1 with kws := Function.update s.1.kws s.1.next ⟨{}, none⟩, next := s.1.next + 1 },
    Dict.set s.2 k s.1.next)

/-- Lines 337-341: the arguments used, and `q_args`, which is completed. Without `q_args` there are items for the types
0, ..., 4 only. The order in which Python visits the set of missing keys is not modelled; the new dicts are not shared. -/
def takeArgs (o : Objs T K) (cls : Dict Int QClass) : Option Nat → Objs T K × Dict Int Nat
  | none => [0, 1, 2, 3, 4].foldl addEmpty (o, [])
  | some r =>
    let s := (Dict.keys cls).foldl addEmpty (o, o.args r)
    ({ s.1 with args := Function.update s.1.args r s.2 }, s.2)

/-- One round of lines 343-345. -/
def dfltColours (o : Objs T K) (p : Int × Nat) : Objs T K :=
  if (o.kws p.2).colors.isSome then o
  else { o with kws := Function.update o.kws p.2 { o.kws p.2 with colors := some (networkDict p.1) } }

/-- `q_arg[eType]['num_servers'] = max(cap, 1)`, graph_preparation.py lines 166-168. -/
def giveServers (o : Objs T K) (cap : Option (Nat → Option Nat)) (v r : Nat) : Objs T K :=
  match cap, (o.kws r).kw.numServers with
  | some cap, none =>
    { o with kws := Function.update o.kws r { o.kws r with
        kw := { (o.kws r).kw with numServers := some (.int (max ((cap v).getD 0) 1)) } } }
  | _, _ => o

/-- A queue of a network: its parameters and its dict of colours. -/
abbrev NewQueue (T : Type*) := QCfg T × DictRef

/-- One round of the loop of `_set_queues`, graph_preparation.py lines 162-170. `cls(edge=qedge, **args)` raises TypeError
if there is an item `edge` in `args`. The objects are changed also if an exception is raised. -/
def newQueue (arr svc : Nat → T → T) (g : QGraph A) (cls : Dict Int QClass) (args : Dict Int Nat)
    (cap : Option (Nat → Option Nat)) (e : Nat × Nat) (o : Objs T K) (qs : List (Option (NewQueue T))) :
    Objs T K × Except Err (List (Option (NewQueue T))) :=
  match (g.adj.look e.1 e.2).bind (·.etype), Dict.get? g.index e with
  | some et, some k =>
    match Dict.get? args et with
    | none => (o, .error .keyError)
    | some r =>
      let o := giveServers o cap e.2 r
      match Dict.get? cls et with
      | none => (o, .error .keyError)
      | some c =>
        if (o.kws r).kw.edge.isSome then (o, .error .typeError)
        else
          match c.make arr svc { (o.kws r).kw with edge := some ⟨e.1, e.2, k, et⟩ } with
          | .error err => (o, .error err)
          | .ok q =>
            let p := newColours o.colours c (o.kws r).colors
            ({ o with colours := p.1 }, .ok (qs.set k (some (q, p.2))))
  | _, _ => (o, .error .keyError)

/-- `_set_queues`, graph_preparation.py lines 159-172. -/
def newQueues (arr svc : Nat → T → T) (g : QGraph A) (cls : Dict Int QClass) (args : Dict Int Nat)
    (cap : Option (Nat → Option Nat)) : List (Nat × Nat) → Objs T K → List (Option (NewQueue T)) →
    Objs T K × Except Err (List (Option (NewQueue T)))
  | [], o, qs => (o, .ok qs)
  | e :: es, o, qs =>
    match newQueue arr svc g cls args cap e o qs with
    | (o, .error err) => (o, .error err)
    | (o, .ok qs) => newQueues arr svc g cls args cap es o qs

/-- A value given as `blocking`. -/
inductive BlockArg
  | str (s : String)
  | other

/-- Lines 310-311 and 320, and the setter, lines 380-384: `_blocking`. SIMPLIFIED: `lower` changes the letters A-Z only;
no other character has r or s as its lower case. -/
def blockingOf : BlockArg → Except Err Bool
  | .str s => .ok (decide (s.toLower ≠ "rs"))
  | .other => .error .typeError

/-- The attribute `blocking`, line 378. -/
def blockingName (bas : Bool) : String := if bas then "BAS" else "RS"

/-- A call `QueueNetwork(g, q_classes, q_args, blocking=..., adjust_graph=...)`: the dicts given are objects, `none`: not
given; `cap` as in `makeNetwork`. -/
structure NetCall (A : Type*) where
  g : QGraph A
  cap : Option (Nat → Option Nat) := none
  classes : Option Nat := none
  args : Option Nat := none
  blocking : BlockArg := .str "BAS"
  adjust : Bool := true

/-- A new network. -/
structure NewNet (A T : Type*) where
  graph : QGraph A
  queues : List (Option (NewQueue T))
  out : Nat → List Nat
  bas : Bool

/-- `QueueNetwork.__init__`, lines 307-370 (without `colors`, C123, and `seed`). -/
def newNet [EmptyCollection A] (arr svc : Nat → T → T) (o : Objs T K) (c : NetCall A) :
    Objs T K × Except Err (NewNet A T) :=
  match blockingOf c.blocking with
  | .error e => (o, .error e)
  | .ok bas =>
    let p := takeClasses o c.classes
    let s := takeArgs p.1 p.2 c.args
    let o := s.2.foldl dfltColours s.1
    match prepare c.g c.cap c.adjust with
    | .error e => (o, .error e)
    | .ok (g, cap) =>
      match newQueues arr svc g p.2 s.2 cap g.adj.edges o (List.replicate g.adj.edges.length none) with
      | (o, .error e) => (o, .error e)
      | (o, .ok qs) =>
        match g.allOut with
        | .error e => (o, .error e)
        | .ok out => (o, .ok ⟨g, qs, out, bas⟩)

/-- Several networks made one after the other; exceptions are caught. -/
def newNets [EmptyCollection A] (arr svc : Nat → T → T) (o : Objs T K) (cs : List (NetCall A)) : Objs T K :=
  cs.foldl (fun o c => (newNet arr svc o c).1) o

end

end Verif
