import Verif.Queue

/-!
# Making queues

Model of the constructors of the five queue classes (queue_servers.py lines 278-333, 825-829, 908-913;
queue_extentions.py lines 88-97, 287-290): the checking of `num_servers`, the defaults, and the dicts of
colours, which are objects that several queues can share.
-/

namespace Verif

/-- The queue classes of the library. -/
inductive QClass
  | server | loss | null | resource | info
deriving DecidableEq, Repr

/-- Keyword arguments of a constructor; `none`: not given. SIMPLIFIED: `nServers`, `active_cap` and `qbuffer` are
integers or `numpy.infty`. -/
structure QKw (T : Type*) where
  numServers : Option PyNum := none
  nServers : Option Cap := none
  edge : Option Edge := none
  arrivalF : Option (Nat → T → T) := none
  serviceF : Option (Nat → T → T) := none
  factory : Option AgentKind := none
  activeCap : Option Cap := none
  deactiveT : Option T := none
  qbuffer : Option Cap := none

/-- The check of `num_servers`, queue_servers.py lines 284-289. -/
def checkServers : PyNum → Except Err Cap
  | .other => .error .typeError
  | .infty => .ok .inf
  | .int n => if n ≤ 0 then .error .valueError else .ok (.fin n)

section

variable {T : Type*} [Top T]

/-- `QueueServer.__init__`, queue_servers.py lines 278-313 (the state of the new queue is `QS.init`). `arr` and `svc`
are the functions used if none are given (lines 298-304): `t + exponential(1.0)`, `t + exponential(0.9)`. Other
keyword arguments are ignored. -/
def serverInit (arr svc : Nat → T → T) (kw : QKw T) : Except Err (QCfg T) :=
  match checkServers (kw.numServers.getD (.int 1)) with
  | .error e => .error e
  | .ok n => .ok {
      kind := .server
      edge := kw.edge.getD ⟨0, 0, 0, 1⟩
      servers := kw.nServers.getD n
      arrivalF := kw.arrivalF.getD arr
      serviceF := kw.serviceF.getD svc
      factory := kw.factory.getD .plain
      activeCap := kw.activeCap.getD .inf
      deactiveT := kw.deactiveT.getD ⊤
      buffer := .fin 0
      maxServers := .fin 0 }

/-- `LossQueue.__init__`, queue_servers.py lines 825-829. -/
def lossInit (arr svc : Nat → T → T) (kw : QKw T) : Except Err (QCfg T) :=
  match serverInit arr svc kw with
  | .error e => .error e
  | .ok c => .ok { c with kind := .loss, buffer := kw.qbuffer.getD (.fin 0) }

/-- `NullQueue.__init__`, queue_servers.py lines 908-913. -/
def nullInit (arr svc : Nat → T → T) (kw : QKw T) : Except Err (QCfg T) :=
  match serverInit arr svc { kw with edge := some (kw.edge.getD ⟨0, 0, 0, 0⟩) } with
  | .error e => .error e
  | .ok c => .ok { c with kind := .null, servers := .fin 0 }

/-- `2 * num_servers` for a number of servers that passed the check, queue_extentions.py line 96. -/
def twice : PyNum → Cap
  | .int n => .fin (2 * n)
  | _ => .inf

/-- `ResourceQueue.__init__`, queue_extentions.py lines 88-97. -/
def resourceInit (arr svc : Nat → T → T) (kw : QKw T) : Except Err (QCfg T) :=
  let n := kw.numServers.getD (.int 10)
  match lossInit arr svc { kw with
      numServers := some n
      factory := some (kw.factory.getD (.resource false false))
      qbuffer := some (kw.qbuffer.getD (.fin 0)) } with
  | .error e => .error e
  | .ok c => .ok { c with kind := .resource, maxServers := twice n }

/-- `InfoQueue.__init__`, queue_extentions.py lines 287-290, without `net_data` (Info.lean). An `InfoAgent` is a plain
agent here, its information is modelled in Info.lean. -/
def infoInit (arr svc : Nat → T → T) (kw : QKw T) : Except Err (QCfg T) :=
  lossInit arr svc { kw with
    factory := some (kw.factory.getD .plain)
    qbuffer := some (kw.qbuffer.getD .inf) }

/-- Calling a queue class. -/
def QClass.make (arr svc : Nat → T → T) (kw : QKw T) : QClass → Except Err (QCfg T)
  | .server => serverInit arr svc kw
  | .loss => lossInit arr svc kw
  | .null => nullInit arr svc kw
  | .resource => resourceInit arr svc kw
  | .info => infoInit arr svc kw

end

/-! ## Dicts of colours -/

/-- Keys of a dict of colours. -/
inductive ColKey
  | edgeLoop | edge | vertexFill | vertex | vertexPen
deriving DecidableEq, Repr

/-- A dict object: the class attribute `_default_colors` of a class, or any other dict (given by the user, or one of
`QueueNetwork.default_q_colors`). InfoQueue inherits the attribute of LossQueue. -/
inductive DictRef
  | ofServer | ofLoss | ofNull | ofResource
  | other (n : Nat)
deriving DecidableEq, Repr

/-- `cls._default_colors` -/
def QClass.dflt : QClass → DictRef
  | .server => .ofServer
  | .loss | .info => .ofLoss
  | .null => .ofNull
  | .resource => .ofResource

/-- The contents of all dicts. SIMPLIFIED: a colour is a value; the library never changes a list of colour components in
place. -/
abbrev Dicts (K : Type*) := DictRef → ColKey → Option K

/-- `d[key] = v` -/
def Dicts.set {K : Type*} (D : Dicts K) (d : DictRef) (key : ColKey) (v : Option K) : Dicts K :=
  fun d' key' => if d' = d ∧ key' = key then v else D d' key'

/-- The end of `QueueServer.__init__`, queue_servers.py lines 328-333, for an object of class `cls`: what it does to the
dicts, and the dict that becomes `self.colors`. -/
def newColours {K : Type*} (D : Dicts K) (cls : QClass) : Option DictRef → Dicts K × DictRef
  | none => (D, cls.dflt)
  | some d =>
    (fun d' key =>
      if d' = d then
        match D d key with
        | some v => some v
        | none => D cls.dflt key
      else D d' key, d)

/-- What can happen to dicts of colours: a queue of class `cls` is made with `colors=d`, or somebody assigns to an item
of `q.colors` of the queue made as number `q`. -/
inductive ColOp (K : Type*)
  | make (cls : QClass) (d : Option DictRef)
  | assign (q : Nat) (key : ColKey) (v : K)

/-- The dicts, and the dict `colors` of every queue made so far. -/
structure ColState (K : Type*) where
  dicts : Dicts K
  queues : List DictRef

/-- Perform an operation (assignment to a queue that does not exist does nothing). -/
def ColOp.run {K : Type*} (s : ColState K) : ColOp K → ColState K
  | .make cls d => ⟨(newColours s.dicts cls d).1, s.queues ++ [(newColours s.dicts cls d).2]⟩
  | .assign q key v =>
    match s.queues[q]? with
    | none => s
    | some d => { s with dicts := s.dicts.set d key (some v) }

/-- `q.colors.get(key)` of the queue made as number `q`. -/
def ColState.colour {K : Type*} (s : ColState K) (q : Nat) (key : ColKey) : Option K :=
  match s.queues[q]? with
  | none => none
  | some d => s.dicts d key

/-- The dict that becomes `args['colors']` of an edge type without `colors` in `q_args`, queue_network.py lines 343-345:
`default_q_colors.get(key, default_q_colors[1])`, where `default_q_colors` has the keys 0, ..., 4 and its dicts are the
objects `other 0`, ..., `other 4`. -/
def networkDict (et : Int) : DictRef :=
  if 0 ≤ et ∧ et ≤ 4 then .other et.toNat else .other 1

end Verif
