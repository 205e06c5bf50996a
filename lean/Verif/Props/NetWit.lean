import Verif.NetRun
import Mathlib.Data.ENat.Basic

/-! # Concrete networks used to show that hypotheses are met -/

set_option linter.unusedSectionVars false

namespace Verif

variable {T R : Type*} [LinearOrder T] [OrderTop T] [Zero T] [LinearOrder R] [Add R]

/-- A sufficient test for `NetOp.Allowed`. -/
def NetOp.check (N : NetCfg T R) (n : Net T R) : NetOp R → Bool
  | .initialise pick a => !n.initialized || (match n.initialise N pick a with
    | .error _ => true
    | .ok n' => (List.range N.nE).all fun k => decide (n.t ≤ (n'.qs k).time))
  | .collect _ ks => ks.all (· < N.nE)
  | .clearData ks => ks.all (· < N.nE)
  | .setProbs _ => false
  | .setServers k m => decide (k < N.nE) && decide ((setNumServers (N.qc k) (n.qs k) m).1.time = (n.qs k).time)
  | .setInactive k => decide (k < N.nE)
  | _ => true

theorem NetOp.allowed_of_check {N : NetCfg T R} {n : Net T R} {op : NetOp R} (h : op.check N n = true) :
    op.Allowed N n := by
  cases op with
  | initialise pick a =>
    simp only [NetOp.check, Bool.or_eq_true, Bool.not_eq_true'] at h
    rcases h with h | h
    · exact .inl h
    · refine .inr fun n' hn k hk => ?_
      rw [hn] at h
      simp only [List.all_eq_true, List.mem_range, decide_eq_true_eq] at h
      exact h k hk
  | _ => simp_all [NetOp.check, NetOp.Allowed]

/-- Perform a list of operations; `none` if one raises or is not allowed. -/
def runNet (N : NetCfg T R) : Net T R → List (NetOp R) → Option (Net T R)
  | n, [] => some n
  | n, op :: ops =>
    if op.check N n then
      match op.run N n with
      | .error _ => none
      | .ok n' => runNet N n' ops
    else none

theorem NetReach.ofOps {N : NetCfg T R} {b : Nat → Bool} {n n' : Net T R} (ops : List (NetOp R))
    (h : NetReach N b n) (hr : runNet N n ops = some n') : NetReach N b n' := by
  induction ops generalizing n with
  | nil => simp only [runNet, Option.some.injEq] at hr; exact hr ▸ h
  | cons op ops ih =>
    simp only [runNet] at hr
    split at hr
    · rename_i hc
      split at hr
      · simp at hr
      · rename_i n1 h1
        exact ih (h.step op (NetOp.allowed_of_check hc) h1) hr
    · simp at hr

/-- Result of a run (a new network if it raised). -/
def resNet (N : NetCfg T R) (b : Nat → Bool) (bas : Bool) (probs : Nat → List R) (ops : List (NetOp R)) :
    Net T R :=
  (runNet N (Net.init N b bas probs) ops).getD (Net.init N b bas probs)

theorem reachNet (N : NetCfg T R) (b : Nat → Bool) (bas : Bool) (probs : Nat → List R)
    (ops : List (NetOp R)) (hp : ∀ v, (probs v).length = (N.outEdges v).length) :
    NetReach N b (resNet N b bas probs ops) := by
  unfold resNet
  cases h : runNet N (Net.init N b bas probs) ops with
  | none => exact .new bas probs hp
  | some n' => exact (NetReach.new bas probs hp).ofOps ops h

theorem runNet_append (N : NetCfg T R) (n : Net T R) (l m : List (NetOp R)) :
    runNet N n (l ++ m) = (runNet N n l).bind fun n' => runNet N n' m := by
  induction l generalizing n with
  | nil => rfl
  | cons op l ih =>
    simp only [List.cons_append, runNet]
    split
    · split
      · rfl
      · rw [ih]
    · rfl

/-- The last `simulate(n=1)` of a run that did not raise. -/
theorem resNet_step {N : NetCfg T R} {b : Nat → Bool} {bas : Bool} {probs : Nat → List R}
    {ops : List (NetOp R)} (h : (runNet N (Net.init N b bas probs) (ops ++ [.step])).isSome = true) :
    (resNet N b bas probs ops).simulate N 1 = .ok (resNet N b bas probs (ops ++ [.step])) := by
  unfold resNet
  rw [runNet_append] at h ⊢
  cases h1 : runNet N (Net.init N b bas probs) ops with
  | none => rw [h1] at h; simp at h
  | some n =>
    rw [h1] at h
    simp only [Option.bind_some, runNet, NetOp.check, if_true, NetOp.run, Option.getD_some] at h ⊢
    split at h
    · simp at h
    · rename_i n' h2; rw [h2]; rfl

/-- Every queue of the demonstration networks serves one agent at a time. -/
def demoQ (kind : QKind) (src tgt idx etype : Nat) (arr svc : ℕ∞) (buffer : Cap) : QCfg ℕ∞ where
  kind := kind
  edge := ⟨src, tgt, idx, etype⟩
  servers := .fin 1
  arrivalF := fun _ t => t + arr
  serviceF := fun _ t => t + svc
  factory := .plain
  activeCap := .inf
  deactiveT := ⊤
  buffer := buffer
  maxServers := .inf

/-- Queue 0 from vertex 0 to 1, a LossQueue 1 from 1 to 2, a QueueServer 2 from 1 to 3; NullQueues 3 and 4
at the vertices 2 and 3. -/
def demoNet : NetCfg ℕ∞ Nat where
  nE := 5
  qc k := match k with
    | 0 => demoQ .server 0 1 0 1 2 1 .inf
    | 1 => demoQ .loss 1 2 1 2 5 7 (.fin 0)
    | 2 => demoQ .server 1 3 2 3 5 2 .inf
    | 3 => demoQ .null 2 2 3 0 1 1 .inf
    | _ => demoQ .null 3 3 k 0 1 1 .inf
  outEdges v := match v with
    | 0 => [0]
    | 1 => [1, 2]
    | 2 => [3]
    | _ => [4]
  maxAgents := .fin 6
  unif i := i % 3
  jit _ t := t + 1
  garbage _ _ := (0, 0)

/-- Both out-edges of vertex 1 have weight 1; the draws are 0, 1, 2, 0, ... -/
def demoProbs (v : Nat) : List Nat := if v = 1 then [1, 1] else [1]

theorem demoProbs_ok : ∀ v, (demoProbs v).length = (demoNet.outEdges v).length := by
  intro v
  match v with
  | 0 | 1 | 2 => rfl
  | _ + 3 => rfl

theorem demoNet_ok : demoNet.Ok where
  idx := by decide
  kinds := by unfold Simple; decide
  fwd := by
    intro k hk
    refine ⟨fun n t => ?_, fun n t => ?_⟩ <;>
    · have : k = 0 ∨ k = 1 ∨ k = 2 ∨ k = 3 ∨ k = 4 := by
        have : k < 5 := hk
        omega
      rcases this with rfl | rfl | rfl | rfl | rfl <;> exact le_self_add
  out := by unfold Simple; decide
  outLt := by unfold Simple; decide
  jit := fun _ _ => le_self_add

theorem demoNet_noLoop : demoNet.NoLoop := by unfold NetCfg.NoLoop Simple; decide

theorem demoNet_noInf : demoNet.NoInf := .inr demoNet_noLoop

/-- Initialise queue 0 and simulate `m` events. -/
def demoRun (m : Nat) : List (NetOp Nat) :=
  .initialise (fun l _ => l) (.queues [0, 2]) :: List.replicate m .step

theorem demoRun_succ (m : Nat) : demoRun (m + 1) = demoRun m ++ [.step] := by
  rw [demoRun, List.replicate_succ']; rfl

/-- State of the demonstration network after `m` events. -/
abbrev demoAt (m : Nat) : Net ℕ∞ Nat := resNet demoNet (fun _ => true) true demoProbs (demoRun m)

theorem demoAt_reach (m : Nat) : NetReach demoNet (fun _ => true) (demoAt m) :=
  reachNet _ _ _ _ _ demoProbs_ok

theorem demoAt_step (m : Nat)
    (h : (runNet demoNet (Net.init demoNet (fun _ => true) true demoProbs) (demoRun (m + 1))).isSome = true) :
    (demoAt m).simulate demoNet 1 = .ok (demoAt (m + 1)) := by
  rw [demoRun_succ] at h
  rw [demoAt, demoAt, demoRun_succ]
  exact resNet_step h

end Verif
