import Verif.Props.AnyNet
import Verif.Props.Net3
import Verif.Props.Queue1
import Verif.Props.Queue2
import Verif.Props.Queue3
import Verif.Props.Queue4

/-!
# Queues inside a network (C78, C79)
-/

set_option linter.unusedSectionVars false

namespace Verif.NetSpec

open Verif.QueueSpec

variable {T R : Type*} [LinearOrder T] [OrderTop T] [Zero T] [LinearOrder R] [Add R]

/-! ## C78: the laws of single queues hold for the queues of a network -/

/-- C78: whatever is done to a network, each of its queues that is not a NullQueue has gone through a history of its own,
from construction, made of calls of the queue's methods. In that history agents are handed over no earlier than the
queue's clock, departures are postponed to no earlier than that and with one blocked agent each, the number of servers
changes only in a `set_num_servers` of the network's user, and so on (`SeenBy`). -/
theorem C78_history {N : NetCfg T R} (hN : N.OkA) {b : Nat → Bool} {ok : Net T R → NetOp R → Prop} {n : Net T R}
    (h : NetHist N b ok n) {k : Nat} (hk : k < N.nE) (hs : (N.qc k).kind ≠ .null) :
    Reach (N.qc k) (b k) (SeenBy ok k) (n.qs k) := h.queue hN hk hs

theorem reach_mono {c : QCfg T} {b : Bool} {P P' : QS T → QOp T → Prop} {s : QS T} (h : Reach c b P s)
    (hp : ∀ s q, P s q → P' s q) : Reach c b P' s := by
  induction h with
  | init => exact .init
  | step op _ h2 hr ih => exact ih.step op (hp _ _ h2) hr

theorem queueOf {N : NetCfg T R} (hN : N.OkA) {b : Nat → Bool} {n : Net T R} (h : NetReach N b n) {k : Nat}
    (hk : k < N.nE) (hs : Simple (N.qc k)) : Reach (N.qc k) (b k) anyOp (n.qs k) :=
  reach_mono (h.hist.queue hN hk hs.ne_null) fun _ _ _ => trivial

/-- C78, the census: in every queue of a network that has been run in any way, those in the system are those
waiting and those in service; arrivals are departures and those in the system; `num_total` counts those scheduled to
arrive too; and that is the number the network keeps in `num_agents`. -/
theorem C78_census {N : NetCfg T R} (hN : N.OkA) {b : Nat → Bool} {n : Net T R} (h : NetReach N b n) {k : Nat}
    (hk : k < N.nE) (hs : Simple (N.qc k)) :
    (n.qs k).numSystem = ((n.qs k).queue.length : Int) + (inService (n.qs k)).length ∧
    ((n.qs k).numArrivals : Int) = (n.qs k).numDepartures + (n.qs k).numSystem ∧
    (n.qs k).numTotal = ((agents (n.qs k).arrivals).length + (n.qs k).queue.length +
      (inService (n.qs k)).length : Nat) ∧
    n.numAgents k = (n.qs k).numTotal := by
  have hr := queueOf hN h hk hs
  have h1 := C05_census hs hr
  rw [numberQueued, if_neg hs.ne_null] at h1
  exact ⟨h1.1, h1.2, C06_total_census hs hr, (h.invA hN).num k hk⟩

/-- C78, first come first served: in every queue of a network, agents start service in the order in which they
joined the queue; each is served at most once per visit; nobody waits while a server is idle. -/
theorem C78_service {N : NetCfg T R} (hN : N.OkA) {b : Nat → Bool} {n : Net T R} (h : NetReach N b n) {k : Nat}
    (hk : k < N.nE) (hs : Simple (N.qc k)) :
    stageIds 1 (n.qs k).log ++ (n.qs k).queue.map (·.id) = stageIds 0 (n.qs k).log ∧
    (stageIds 1 (n.qs k).log).Perm (stageIds 2 (n.qs k).log ++ (inService (n.qs k)).map (·.id)) ∧
    (0 < (n.qs k).queue.length → ∃ m : Int, (n.qs k).numServers = .fin m ∧ m ≤ (inService (n.qs k)).length) := by
  have hr := queueOf hN h hk hs
  have h1 := C07_work_conserving hs hr
  rw [numberQueued, if_neg hs.ne_null] at h1
  exact ⟨C09_fcfs hs hr, (C10_served_once hs hr).2.1, h1⟩

/-- C78, servers: while no number of servers is lowered, no queue of a network serves more agents than it has servers,
and no LossQueue holds more than its room. -/
theorem C78_limits {N : NetCfg T R} (hN : N.OkA) {b : Nat → Bool} {n : Net T R} (h : NetHist N b NoLowering n)
    {k : Nat} (hk : k < N.nE) (hs : Simple (N.qc k)) :
    ((∀ m, (N.qc k).servers = .fin m → 0 ≤ m) →
      ∀ m : Int, (n.qs k).numServers = .fin m → (inService (n.qs k)).length ≤ m) ∧
    ((N.qc k).kind = .loss → ((N.qc k).servers.add (N.qc k).buffer).le 0 = true →
      ∀ m : Int, (n.qs k).numServers.add (N.qc k).buffer = .fin m → (n.qs k).numSystem ≤ m) := by
  have hr : Reach (N.qc k) (b k) NoLower (n.qs k) :=
    reach_mono (h.queue hN hk hs.ne_null) fun _ _ h => h.noLower fun _ _ h => h
  exact ⟨fun h0 => C08_not_oversubscribed_partial hs h0 hr, fun hl h0 m hm => ((C22_capacity hl h0 hr).1 m hm).1⟩

/-- C78, without any call of `set_num_servers` the number of servers is the one the queue was constructed with. -/
theorem C78_servers {N : NetCfg T R} (hN : N.OkA) {b : Nat → Bool} {n : Net T R}
    (h : NetHist N b (fun _ op => ∀ k m, op ≠ .setServers k m) n) {k : Nat} (hk : k < N.nE) (hs : Simple (N.qc k)) :
    (n.qs k).numServers = (N.qc k).servers := by
  have hr := h.queue hN hk hs.ne_null
  refine hr.induct (P := fun s => s.numServers = (N.qc k).servers) hs rfl ?_
  intro s s' op hb hp hx ho
  cases ho with
  | srv m s' r ho => obtain ⟨n, -, hn⟩ := hx; exact absurd rfl (hn k m)
  | ev s' r _ h1 =>
    cases h1 with
    | idle _ _ h2 => rw [h2]; exact hp
    | dep a _ h2 _ => rw [h2.numServers]; exact hp
    | arr a rest _ _ _ h2 _ => rw [h2.numServers]; exact hp
    | block a rest _ _ _ _ h2 _ => rw [h2.numServers]; exact hp
  | delay t kb s' h1 =>
    cases h1 with
    | none => exact hp
    | some => exact hp
  | clear => rw [clear_simple _ _ hs]; exact hp
  | already => exact hp
  | act => exact hp
  | inact => exact hp
  | collect => exact hp
  | noteFull => exact hp
  | noteOpen => exact hp
  | clearData => exact hp
  | handover => exact hp

/-- The demonstration network after 12 events: queue 2 has been given a second server, then queue 0 none at all
(`set_num_servers(0)` raises), then queue 1 was stopped. -/
def serversAt (m : Nat) : Net ℕ∞ Nat :=
  resNet demoNet (fun _ => true) true demoProbs
    (demoRun 7 ++ [.setServers 2 (.int 2), .setServers 0 (.int 0), .setInactive 1] ++ List.replicate m .step)

theorem serversAt_reach (m : Nat) : NetReach demoNet (fun _ => true) (serversAt m) :=
  reachNet _ _ _ _ _ demoProbs_ok

example : Simple (demoNet.qc 2) ∧ ((serversAt 5).qs 2).numServers = .fin 2 ∧ ((serversAt 5).qs 0).numServers = .fin 1 ∧
    (serversAt 5).numEvents = 12 ∧ 0 < ((serversAt 5).qs 2).numArrivals ∧ 0 < ((serversAt 5).qs 2).numDepartures ∧
    0 < ((serversAt 5).qs 2).numSystem := by
  refine ⟨.inl rfl, ?_⟩
  decide +kernel

/-- C78 at a ResourceQueue. -/
example : stockNet.OkA ∧ NetReach stockNet (fun _ => true) (stockAt 14) ∧ (stockNet.qc 1).kind = .resource ∧
    ((stockAt 14).qs 1).numArrivals = 2 ∧ ((stockAt 14).qs 1).numDepartures = 1 ∧ ((stockAt 14).qs 1).numSystem = 1 :=
  ⟨stockNet_ok, stockAt_reach 14, rfl, by decide +kernel⟩

/-! ## C79: `set_num_servers` on a queue of a running network -/

/-- C79, the part that holds: if nobody who starts service finishes before the next event of the queue, then the
network goes on as it should: nothing scheduled is in the past, and the clock does not run backwards in any number
of events. Missing: the case in which somebody finishes earlier (`C79_clock_runs_back`, F28). -/
theorem C79_set_num_servers_partial {N : NetCfg T R} (hN : N.OkA) {b : Nat → Bool} {n : Net T R} (h : NetReach N b n)
    {k : Nat} (hk : k < N.nE) (hs : Simple (N.qc k)) (m : PyNum) {s' : QS T}
    (hs' : s' = (setNumServers (N.qc k) (n.qs k) m).1)
    (hlate : ∀ a ∈ inService s', (n.qs k).time ≤ a.time) :
    NetReach N b (n.setQ k s') ∧ (∀ j < N.nE, ∀ x ∈ pending ((n.setQ k s').qs j), n.t ≤ x.time) ∧
    ∀ i n', (n.setQ k s').simulate N i = .ok n' → n.t ≤ n'.t := by
  subst hs'
  have hr := queueOf hN h hk hs
  have hr' : Reach (N.qc k) (b k) anyOp (setNumServers (N.qc k) (n.qs k) m).1 :=
    hr.step (.setServers m) trivial rfl
  have h1 := C12_time_next_event hs hr
  have h2 := C12_time_next_event hs hr'
  have hsub : (agents (setNumServers (N.qc k) (n.qs k) m).1.arrivals = agents (n.qs k).arrivals) ∧
      ∀ a ∈ inService (n.qs k), a ∈ inService (setNumServers (N.qc k) (n.qs k) m).1 := by
    have hspec := setNumServers_spec (N.qc k) (n.qs k) m hs (hr.base hs).okD
    generalize (setNumServers (N.qc k) (n.qs k) m).1 = s' at *
    generalize (setNumServers (N.qc k) (n.qs k) m).2 = r at *
    cases hspec with
    | typ _ => exact ⟨rfl, fun a ha => ha⟩
    | val _ _ _ => exact ⟨rfl, fun a ha => ha⟩
    | ok new j deps g1 g2 g3 g4 g5 =>
      exact ⟨rfl, fun a ha => g5.mem_iff.mpr (List.mem_append_right _ ha)⟩
  have ht : (setNumServers (N.qc k) (n.qs k) m).1.time = (n.qs k).time := by
    refine le_antisymm ?_ ?_
    · rcases eq_top_or_lt_top (n.qs k).time with e | e
      · rw [e]; exact le_top
      · obtain ⟨a, ha, e⟩ := h1.2.1 e
        rw [← e]
        refine h2.1 a ?_
        rw [hsub.1]
        rcases List.mem_append.mp ha with ha | ha
        · exact List.mem_append_left _ ha
        · exact List.mem_append_right _ (hsub.2 a ha)
    · rcases eq_top_or_lt_top (setNumServers (N.qc k) (n.qs k) m).1.time with e | e
      · rw [e]; exact le_top
      · obtain ⟨a, ha, e⟩ := h2.2.1 e
        rw [← e]
        rcases List.mem_append.mp ha with ha | ha
        · rw [hsub.1] at ha
          exact h1.1 a (List.mem_append_left _ ha)
        · exact hlate a ha
  have hn : NetReach N b (n.setQ k (setNumServers (N.qc k) (n.qs k) m).1) :=
    h.step (.setServers k m) ⟨hk, ht⟩ rfl
  have h3 := C98_clock_monotone hN hn
  exact ⟨hn, fun j hj => (h3.1 j hj).2, fun i n' hi => h3.2 i n' hi⟩

/-- Queue 0 serves its first agent in 20, the next in 1 and 2; the others go on to nothing. -/
def lateNet : NetCfg ℕ∞ Nat where
  nE := 2
  qc k := match k with
    | 0 => { demoQ .server 0 1 0 1 1 1 .inf with
        deactiveT := 4
        serviceF := fun i t => t + if i = 0 then 20 else i }
    | _ => demoQ .null 1 1 k 0 1 1 .inf
  outEdges v := match v with
    | 0 => [0]
    | _ => [1]
  maxAgents := .inf
  unif _ := 0
  jit _ t := t
  garbage _ _ := (0, 0)

theorem lateNet_ok : lateNet.Ok := by
  have hk : ∀ k, k < 2 → k = 0 ∨ k = 1 := by omega
  refine ⟨by decide, by unfold Simple; decide, fun k h => ?_, by unfold Simple; decide,
    by unfold Simple; decide, fun _ _ => le_rfl⟩
  rcases hk k h with rfl | rfl <;> exact ⟨fun n t => le_self_add, fun n t => le_self_add⟩

/-- State of `lateNet` after three arrivals. -/
def lateAt : Net ℕ∞ Nat :=
  resNet lateNet (fun _ => true) true (fun _ => [1])
    (.initialise (fun l _ => l) (.queues [0]) :: List.replicate 3 .step)

/-- ... and after `set_num_servers(3)` and `m` more events. -/
def lateThen (m : Nat) : Net ℕ∞ Nat :=
  match (lateAt.setQ 0 (setNumServers (lateNet.qc 0) (lateAt.qs 0) (.int 3)).1).simulate lateNet m with
  | .ok n => n
  | .error _ => lateAt

/-- C79 as stated is false (F28): at time 3 two agents wait at queue 0 and a third is in service until 21. With
`set_num_servers(3)` those two start service, to finish at 4 and 5, but the schedule of the network still has 21
for the queue. So the next event is performed at time 21, the departure due at 4; and the one after that at time 5. -/
theorem C79_clock_runs_back : lateNet.Ok ∧ NetReach lateNet (fun _ => true) lateAt ∧ lateAt.t = 3 ∧
    ((lateThen 0).qs 0).numServers = .fin 3 ∧ ((lateThen 0).qs 0).time = 4 ∧
    (lateThen 1).t = 21 ∧ (lateThen 2).t = 5 ∧ (lateThen 2).numEvents = 5 :=
  ⟨lateNet_ok, reachNet _ _ _ _ _ (fun v => by unfold lateNet; dsimp only; split <;> rfl), by decide +kernel,
    by decide +kernel, by decide +kernel, by decide +kernel, by decide +kernel, by decide +kernel⟩

/-- A case in which C79 holds: the second server of queue 2 above. -/
example : ∀ a ∈ inService (setNumServers (demoNet.qc 2) ((demoAt 7).qs 2) (.int 2)).1,
    ((demoAt 7).qs 2).time ≤ a.time := by
  decide +kernel

end Verif.NetSpec
