import Verif.Props.Net3

/-! # C49: an agent that goes round a loop at a LossQueue can be lost if the number of servers was lowered -/

namespace Verif

namespace NetSpec

/-- One LossQueue with three servers and no buffer, a loop at its vertex; three agents come at times 1, 2 and 3. -/
def lossLoop : NetCfg ℕ∞ Nat where
  nE := 1
  qc _ := { demoQ .loss 0 0 0 1 1 10 (.fin 0) with deactiveT := 4, servers := .fin 3 }
  outEdges _ := [0]
  maxAgents := .inf
  unif _ := 0
  jit _ t := t
  garbage _ _ := (0, 0)

theorem lossLoop_ok : lossLoop.Ok := by
  refine ⟨?_, fun _ _ => .inl (.inr rfl), fun _ _ => ⟨fun n t => le_self_add, fun n t => le_self_add⟩, by unfold Simple; decide,
    by unfold Simple; decide, fun _ _ => le_rfl⟩
  intro k hk
  have : k = 0 := by change k < 1 at hk; omega
  rw [this]
  rfl

/-- State of `lossLoop` after the three arrivals, the calls `ops` and `m` events more. -/
def lossLoopAt (ops : List (NetOp Nat)) (m : Nat) : Net ℕ∞ Nat :=
  resNet lossLoop (fun _ => true) true (fun v => List.replicate (lossLoop.outEdges v).length 1)
    (.initialise (fun l _ => l) (.queues [0]) :: .step :: .step :: .step :: ops ++ List.replicate m .step)

/-- C49 as stated is false without ties too: three agents are in service, at times 11, 12 and 13, when the number of servers is
set to 1. The agents that leave at 11 and 12 come back to the same queue, are turned away there and deleted, as the network
does not ask a queue that leads to itself whether it is at capacity. Without that call nobody is lost. -/
theorem C49_lost_in_loop : lossLoop.Ok ∧ RoomOk lossLoop ∧
    NetReach lossLoop (fun _ => true) (lossLoopAt [.setServers 0 (.int 1)] 0) ∧
    ((lossLoopAt [] 0).qs 0).numSystem = 3 ∧ ((lossLoopAt [] 0).qs 0).lost = [] ∧
    (∀ t, ((11, (0, 0)) = t ∨ (12, (0, 1)) = t ∨ (13, (0, 2)) = t) ↔
      t ∈ (agents ((lossLoopAt [.setServers 0 (.int 1)] 0).qs 0).departures).map (fun a => (a.time, a.id))) ∧
    ((lossLoopAt [.setServers 0 (.int 1)] 0).qs 0).lost = [] ∧
    ((lossLoopAt [.setServers 0 (.int 1)] 1).qs 0).lost.map (·.id) = [(0, 0)] ∧
    ((lossLoopAt [.setServers 0 (.int 1)] 3).qs 0).lost.map (·.id) = [(0, 0), (0, 1)] ∧
    ((lossLoopAt [.setServers 0 (.int 1)] 3).qs 0).numSystem = 1 ∧ ((lossLoopAt [] 3).qs 0).lost = [] := by
  refine ⟨lossLoop_ok, by unfold RoomOk; decide, reachNet _ _ _ _ _ (fun _ => List.length_replicate), by decide +kernel,
    by decide +kernel, fun t => ?_, by decide +kernel, by decide +kernel, by decide +kernel, by decide +kernel, by decide +kernel⟩
  have e : (agents ((lossLoopAt [.setServers 0 (.int 1)] 0).qs 0).departures).map (fun a => (a.time, a.id)) =
      [(11, (0, 0)), (13, (0, 2)), (12, (0, 1))] := by decide +kernel
  rw [e]
  simp only [List.mem_cons, List.not_mem_nil, or_false, eq_comm (b := t)]
  tauto

end NetSpec

end Verif
