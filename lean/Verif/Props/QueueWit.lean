import Verif.QueueRun
import Mathlib.Data.ENat.Basic

/-! # Concrete queues used to show that hypotheses are met -/

namespace Verif

variable {T : Type*} [LinearOrder T] [OrderTop T] [Zero T]

/-- Perform a list of operations. -/
def runOps (c : QCfg T) : QS T → List (QOp T) → Except Err (QS T)
  | s, [] => .ok s
  | s, op :: ops =>
    match op.run c s with
    | .error e => .error e
    | .ok s' => runOps c s' ops

/-- All operations performed are allowed. -/
def okOps (c : QCfg T) (ok : QS T → QOp T → Prop) : QS T → List (QOp T) → Prop
  | _, [] => True
  | s, op :: ops => ok s op ∧ ∀ s', op.run c s = .ok s' → okOps c ok s' ops

theorem Reach.ofOps {c : QCfg T} {b : Bool} {ok : QS T → QOp T → Prop} {s s' : QS T}
    (ops : List (QOp T)) (h : Reach c b ok s) (hok : okOps c ok s ops)
    (hr : runOps c s ops = .ok s') : Reach c b ok s' := by
  induction ops generalizing s with
  | nil => simp only [runOps, Except.ok.injEq] at hr; exact hr ▸ h
  | cons op ops ih =>
    simp only [runOps] at hr
    split at hr
    · simp at hr
    · rename_i s1 h1
      exact ih (h.step op hok.1 h1) (hok.2 _ h1) hr

theorem okOps_true (c : QCfg T) (s : QS T) (ops : List (QOp T)) :
    okOps c (fun _ _ => True) s ops := by
  induction ops generalizing s with
  | nil => trivial
  | cons op ops ih => exact ⟨trivial, fun s' _ => ih s'⟩

/-- Result of a run (the initial state if it raised). -/
def resOps (c : QCfg T) (b : Bool) (ops : List (QOp T)) : QS T :=
  match runOps c (QS.init c b) ops with
  | .ok s => s
  | .error _ => QS.init c b

/-- The run did not raise. -/
def goodOps (c : QCfg T) (b : Bool) (ops : List (QOp T)) : Bool :=
  match runOps c (QS.init c b) ops with
  | .ok _ => true
  | .error _ => false

theorem reachOps (c : QCfg T) (b : Bool) (ops : List (QOp T)) :
    goodOps c b ops = true → Reach c b (fun _ _ => True) (resOps c b ops) := by
  intro h
  unfold goodOps at h
  unfold resOps
  split at h
  · rename_i s hs
    exact Reach.init.ofOps ops (okOps_true c _ ops) hs
  · simp at h

/-- One server, an arrival every time unit, service takes three. -/
def demo : QCfg ℕ∞ where
  kind := .server
  edge := ⟨0, 1, 7, 1⟩
  servers := .fin 1
  arrivalF := fun _ t => t + 1
  serviceF := fun _ t => t + 3
  factory := .plain
  activeCap := .inf
  deactiveT := ⊤
  buffer := .fin 0
  maxServers := .inf

/-- The same with one server and room for one waiting agent. -/
def demoLoss : QCfg ℕ∞ := { demo with kind := .loss, buffer := .fin 1 }

/-- Arrivals at 1, 2, 3, ...; services 1-4, 4-7, ... -/
def demoOps : List (QOp ℕ∞) := [.setActive, .next, .next, .next, .next, .next, .next]

end Verif
