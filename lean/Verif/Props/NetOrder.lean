import Verif.Props.Net6
import Verif.Props.NetJourney
import Verif.Props.QueueOrder

/-! # C132 in networks -/

set_option linter.unusedSectionVars false

namespace Verif.NetSpec

open QueueSpec

variable {T R : Type*} [LinearOrder T] [OrderTop T] [Zero T] [LinearOrder R] [Add R] [Zero R]

/-- C132 in a network: a queue with one server, whose number of servers is not changed, lets agents go in the order in
which it admitted them, also if they are held back by full queues. -/
theorem C132_network {N : NetCfg T R} (hN : N.OkA) {b : Nat → Bool} {n : Net T R} {k : Nat}
    (h : NetHist N b (fun _ op => ∀ m, op = .setServers k m → m = .int 1) n) (hk : k < N.nE) (hs : Simple (N.qc k))
    (h1 : (N.qc k).servers = .fin 1) :
    stageIds 2 (n.qs k).log ++ (inService (n.qs k)).map (·.id) ++ (n.qs k).queue.map (·.id) =
      stageIds 0 (n.qs k).log := by
  refine C132_one_server hs h1 (reach_mono (h.queue hN hk hs.ne_null) ?_)
  intro s q hq m hm
  subst hm
  obtain ⟨n', -, hn⟩ := hq
  exact hn m rfl

/-- Agents of both sources pass queue 2 of the demonstration network in the order in which they came. -/
example : NetHist demoNet (fun _ => true) (fun _ op => ∀ m, op = .setServers 2 m → m = .int 1) (demoAt 20) ∧
    (demoNet.qc 2).servers = .fin 1 ∧
    stageIds 2 ((demoAt 20).qs 2).log = [(2, 0), (2, 1), (0, 1), (2, 2)] ∧
    (inService ((demoAt 20).qs 2)).map (·.id) = [(0, 3)] ∧
    stageIds 0 ((demoAt 20).qs 2).log = [(2, 0), (2, 1), (0, 1), (2, 2), (0, 3)] := by
  refine ⟨(demoAt_traj (fun op h n m hm => ?_) (by decide +kernel)).hist, rfl, by decide +kernel, by decide +kernel,
    by decide +kernel⟩
  subst hm
  simp [demoRun] at h

end Verif.NetSpec
