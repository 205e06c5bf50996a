import Verif.NetDrain
import Verif.Props.Net4
import Verif.Props.NetWit

/-!
# Networks without cycles run empty (C87)

Read `simulate` of `/repo/queueing_tool/network/queue_network.py` as a whole: if the queues other than NullQueues can be
ranked so that agents only move to lower ranks, and every active queue has a finite `active_cap`, then after finitely
many events nobody is left and nothing is scheduled. Blocking does not prevent it.
-/

set_option linter.unusedSectionVars false
set_option linter.unusedVariables false

namespace Verif.NetSpec

variable {T R : Type*} [LinearOrder T] [OrderTop T] [Zero T] [LinearOrder R] [Add R]

theorem _root_.Verif.StepOut.flags {N : NetCfg T R} {n n' : Net T R} (h : StepOut N n n') :
    n'.initialized = n.initialized ∧ n'.bas = n.bas := by
  cases h with
  | empty _ h1 => rw [h1]; exact ⟨rfl, rfl⟩
  | idle k x hp h1 h2 h3 h4 h5 _ h6 => rw [h6]; exact ⟨rfl, rfl⟩
  | arrive k s' h1 h2 h3 h4 h5 h6 h7 h8 h9 h10 h11 h12 h13 => exact ⟨h13.init, h13.bas⟩
  | block k e a s1 d h1 h2 h3 h4 h5 h6 h7 h8 h9 h10 h11 h12 h13 h14 h15 h16 h17 h18 => exact ⟨h18.init, h18.bas⟩
  | move k e a s1 s2 d h1 h2 h3 h4 h5 h6 h7 h8 h9 h10 h11 h12 h13 h14 h15 h16 h17 => exact ⟨h17.init, h17.bas⟩

/-- Nobody is in the network and no queue has an event ahead. -/
def Empty (N : NetCfg T R) (n : Net T R) : Prop :=
  ∀ k < N.nE, (n.qs k).time = ⊤ ∧ (n.qs k).queue = [] ∧ agents (n.qs k).arrivals = [] ∧ agents (n.qs k).departures = []

theorem empty_of_no_event {N : NetCfg T R} (hN : N.Ok) (hF : N.FinSvc) {b : Nat → Bool} {n : Net T R}
    (h : NetReach N b n) (ht : ∀ k < N.nE, (n.qs k).time = ⊤) : Empty N n := by
  intro k hk
  have hi := h.inv hN
  rcases hi.good k hk with ⟨hs, hr⟩ | ⟨-, hq⟩
  · have hb := hr.base hs
    have hnt := hb.time
    rw [ht k hk, nextTime, eq_comm, min_eq_top] at hnt
    have ha : agents (n.qs k).arrivals = [] := by
      by_contra hne
      exact absurd (hb.okA.headTime_lt hne (h.finArr hN hk)) (by rw [hnt.1]; exact lt_irrefl _)
    have hd : agents (n.qs k).departures = [] := by
      by_contra hne
      exact absurd (hb.okD.headTime_lt hne (hi.findep hF k hk)) (by rw [hnt.2]; exact lt_irrefl _)
    refine ⟨ht k hk, ?_, ha, hd⟩
    by_contra hne
    have h1 := (hr.inv hs).numSystem
    have h2 : 1 ≤ (n.qs k).numSystem := by
      rw [h1]
      have := List.length_pos_iff.mpr hne
      omega
    exact busy hF hk hs hr h2 hd
  · obtain ⟨h1, h2, h3, h4, h5, h6⟩ := hq
    refine ⟨ht k hk, ?_, ?_, ?_⟩ <;> simp [h4, h5, h6, agents]

/-- C87: a network without cycles whose active queues have finite `active_cap` runs empty, and stays empty. `ρ` ranks
the queues; service and retry times are finite, blocked agents retry later than the departure they wait for, and, under
RS blocking, repeated services take an agent beyond every finite time. -/
theorem C87_runs_empty {N : NetCfg T R} (hN : N.Ok) (hF : N.FinSvc) (hjit : ∀ i t, t < ⊤ → t < N.jit i t) {ρ : Nat → Nat}
    (hρ : Acyclic N ρ) {b : Nat → Bool} {n : Net T R} (h : NetReach N b n) (hin : n.initialized = true)
    (hb : n.bas = false → ∀ k < N.nE, Simple (N.qc k) → Progress (N.qc k))
    (hc : ∀ k < N.nE, (n.qs k).active = true → ∃ m, (N.qc k).activeCap = .fin m) :
    ∃ m, ∀ m' ≥ m, ∃ n', n.simulate N m' = .ok n' ∧ Empty N n' := by
  choose x hx hr hini using fun m => C41_never_crashes hN (.inl hF) h hin m
  have hx0 : x 0 = n := by
    have := hx 0
    rw [Net.simulate, if_pos hin, Net.steps] at this
    simp only [Except.ok.injEq] at this
    exact this.symm
  have hstep : ∀ i, StepOut N (x i) (x (i + 1)) := by
    intro i
    obtain ⟨n2, g1, -⟩ := C41_never_crashes hN (.inl hF) (hr i) (hini i) 1
    have g2 := steps_append i 1 (simulate_ok_init (hx i)).2 (simulate_ok_init g1).2
    have g3 := (simulate_ok_init (hx (i + 1))).2
    rw [g2] at g3
    simp only [Except.ok.injEq] at g3
    subst g3
    exact (step_of_simulate hN (hr i) g1).2
  have hbas : ∀ i, (x i).bas = n.bas := by
    intro i
    induction i with
    | zero => rw [hx0]
    | succ i ih =>
      rw [← ih]
      exact (hstep i).flags.2
  -- without events the queues do not change any more
  have hstill : ∀ i, (∀ k < N.nE, ((x i).qs k).time = ⊤) → ∀ d, ∀ k < N.nE, ((x (i + d)).qs k).time = ⊤ := by
    intro i hi d
    induction d with
    | zero => exact hi
    | succ d ih =>
      intro k hk
      show ((x (i + d + 1)).qs k).time = ⊤
      cases hstep (i + d) with
      | empty _ h1 => rw [h1]; exact ih k hk
      | idle k' x hp h1 h2 h3 h4 h5 _ h6 => rw [h6]; exact ih k hk
      | arrive k' s' h1 h2 h3 h4 => rw [ih k' h1] at h4; exact absurd h4 (lt_irrefl _)
      | block k' e a s1 d h1 h2 h3 h4 h5 h6 => rw [ih k' h1] at h6; exact absurd h6 (lt_irrefl _)
      | move k' e a s1 s2 d h1 h2 h3 h4 h5 => rw [ih k' h1] at h5; exact absurd h5 (lt_irrefl _)
  by_contra hno
  have hev : ∀ i, ∃ k < N.nE, ((x i).qs k).time < ⊤ := by
    intro i
    by_contra hcon
    push Not at hcon
    refine hno ⟨i, fun m' hm' => ⟨x m', hx m', empty_of_no_event hN hF (hr m') ?_⟩⟩
    have := hstill i (fun k hk => top_le_iff.mp (hcon k hk)) (m' - i)
    rwa [show i + (m' - i) = m' by omega] at this
  have hcap : ∀ i, CappedNet N (x i) := by
    intro i
    induction i with
    | zero => rw [hx0]; exact hc
    | succ i ih => exact ((hstep i).drain hN hF hjit hρ ((hr i).inv hN) (by rw [hbas]; exact hb) ih (hev i)).1
  have hdr := fun i => ((hstep i).drain hN hF hjit hρ ((hr i).inv hN) (by rw [hbas]; exact hb) (hcap i) (hev i)).2
  obtain ⟨J, -, hJ⟩ := eventually_const (fun i => netWeight N ρ (x i).qs) _ 0 rfl fun i _ => by
    rcases hdr i with ⟨-, g⟩ | g
    · exact g
    · exact g.le
  refine pauses_end hN hρ (x := x) (I0 := J) fun i hi => ?_
  rcases hdr i with ⟨g, -⟩ | g
  · exact g
  · have := hJ i hi
    omega

/-- C87: so everybody who was in the network, or entered it, has left it. -/
theorem C87_nobody_left {N : NetCfg T R} (hN : N.Ok) (hF : N.FinSvc) (hjit : ∀ i t, t < ⊤ → t < N.jit i t) {ρ : Nat → Nat}
    (hρ : Acyclic N ρ) {b : Nat → Bool} {n : Net T R} (h : NetReach N b n) (hin : n.initialized = true)
    (hb : n.bas = false → ∀ k < N.nE, Simple (N.qc k) → Progress (N.qc k))
    (hc : ∀ k < N.nE, (n.qs k).active = true → ∃ m, (N.qc k).activeCap = .fin m) :
    ∃ m n', n.simulate N m = .ok n' ∧ everyone N n'.qs = [] := by
  obtain ⟨m, hm⟩ := C87_runs_empty hN hF hjit hρ h hin hb hc
  obtain ⟨n', h1, h2⟩ := hm m le_rfl
  refine ⟨m, n', h1, List.eq_nil_iff_forall_not_mem.mpr fun y hy => ?_⟩
  obtain ⟨k, hk, hy⟩ := mem_everyone.mp hy
  obtain ⟨-, e1, e2, e3⟩ := h2 k hk
  simp [presentIds, e1, e2, e3] at hy

/-- C87 needs that some queue is a NullQueue, so that not every path goes on for ever: in a network of QueueServers the
number of agents never falls. -/
theorem C87_closed_never_empty {N : NetCfg T R} (hN : N.Ok) (hk : ∀ k < N.nE, (N.qc k).kind = .server) {b : Nat → Bool}
    (m : Nat) : ∀ {n n' : Net T R}, NetReach N b n → n.simulate N m = .ok n' →
    (everyone N n.qs).length ≤ (everyone N n'.qs).length := by
  induction m with
  | zero =>
    intro n n' _ hr
    obtain ⟨-, h1⟩ := simulate_ok_init hr
    simp only [Net.steps, Except.ok.injEq] at h1
    rw [h1]
  | succ m ih =>
    intro n n' h hr
    obtain ⟨h0, h1⟩ := simulate_ok_init hr
    simp only [Net.steps] at h1
    split at h1
    · simp at h1
    · rename_i n1 hs
      have hr1 : n.simulate N 1 = .ok n1 := by rw [simulate_one, if_pos h0, hs]
      have hin : n1.initialized = true := by rw [(step_of_simulate hN h hr1).2.flags.1, h0]
      have := ih (h.step .step trivial hr1) (by rw [Net.simulate, if_pos hin]; exact h1)
      obtain ⟨new, gone, g1, -, -, -, g2, -⟩ := C43_agents_conserved hN h hr1
      have hg : gone = [] := by
        refine List.eq_nil_iff_forall_not_mem.mpr fun a ha => ?_
        rcases g2 a ha with ⟨-, -, e, he, hne, -⟩ | ⟨e, he, hne, -⟩ <;>
        · rw [hk e he] at hne; exact absurd hne (by decide)
      rw [hg] at g1
      have := g1.length_eq
      simp only [List.map_nil, List.append_nil, List.length_append] at this
      omega

/-! ## Example -/

/-- The demonstration network with queues that create at most two agents, and no limit on the number of agents. -/
def drainNet : NetCfg ℕ∞ Nat where
  nE := 5
  qc k := { demoNet.qc k with activeCap := .fin 2 }
  outEdges := demoNet.outEdges
  maxAgents := .inf
  unif i := i % 3
  jit _ t := t + 1
  garbage _ _ := (0, 0)

theorem drainNet_ok : drainNet.Ok where
  idx := by decide
  kinds := by unfold Simple; decide
  fwd := demoNet_ok.fwd
  out := by unfold Simple; decide
  outLt := by unfold Simple; decide
  jit := fun _ _ => le_self_add

theorem drainNet_svc {k : Nat} (hk : k < 5) : ∃ d : ℕ, 1 ≤ d ∧ ∀ i t, (drainNet.qc k).serviceF i t = t + d := by
  have : k = 0 ∨ k = 1 ∨ k = 2 ∨ k = 3 ∨ k = 4 := by omega
  rcases this with rfl | rfl | rfl | rfl | rfl
  · exact ⟨1, by omega, fun _ _ => rfl⟩
  · exact ⟨7, by omega, fun _ _ => rfl⟩
  · exact ⟨2, by omega, fun _ _ => rfl⟩
  · exact ⟨1, by omega, fun _ _ => rfl⟩
  · exact ⟨1, by omega, fun _ _ => rfl⟩

theorem drainNet_fin : drainNet.FinSvc where
  svc := by
    intro k hk _ i t ht
    obtain ⟨d, -, h⟩ := drainNet_svc hk
    rw [h]
    exact WithTop.add_lt_top.mpr ⟨ht, ENat.natCast_lt_top d⟩
  jit := fun _ t ht => WithTop.add_lt_top.mpr ⟨ht, ENat.natCast_lt_top 1⟩
  servers := by
    intro k hk _ m hm
    have : (drainNet.qc k).servers = .fin 1 := by
      have : k = 0 ∨ k = 1 ∨ k = 2 ∨ k = 3 ∨ k = 4 := by
        have : k < 5 := hk
        omega
      rcases this with rfl | rfl | rfl | rfl | rfl <;> rfl
    rw [this] at hm
    cases hm
    decide
  buffer := by
    intro k hk _ m hm
    have : (drainNet.qc k).buffer = .inf ∨ (drainNet.qc k).buffer = .fin 0 := by
      have : k = 0 ∨ k = 1 ∨ k = 2 ∨ k = 3 ∨ k = 4 := by
        have : k < 5 := hk
        omega
      rcases this with rfl | rfl | rfl | rfl | rfl
      · exact .inl rfl
      · exact .inr rfl
      · exact .inl rfl
      · exact .inl rfl
      · exact .inl rfl
    rcases this with h | h <;> rw [h] at hm <;> cases hm
    decide

/-- Queue 0 leads to the queues 1 and 2, these to NullQueues. -/
def drainRank (k : Nat) : Nat := if k = 0 then 1 else 0

theorem drainNet_acyclic : Acyclic drainNet drainRank := by unfold Acyclic Simple; decide

/-- Services take at least a unit of time, so agents served again and again do not stay before any given time. -/
theorem drainNet_progress {k : Nat} (hk : k < 5) : Progress (drainNet.qc k) := by
  intro B hB
  obtain ⟨d, h1, h⟩ := drainNet_svc hk
  refine ⟨fun t => (B - t).toNat, fun i t ht hle => ?_⟩
  rw [h] at hle ⊢
  lift B to ℕ using hB.ne
  lift t to ℕ using ht.ne
  norm_cast at hle
  show ((B : ℕ∞) - ((t : ℕ∞) + (d : ℕ∞))).toNat < ((B : ℕ∞) - (t : ℕ∞)).toNat
  rw [← Nat.cast_add, ← ENat.natCast_sub, ← ENat.natCast_sub, ENat.toNat_natCast, ENat.toNat_natCast]
  omega

/-- State of that network after `m` events. -/
abbrev drainAt (bas : Bool) (m : Nat) : Net ℕ∞ Nat := resNet drainNet (fun _ => true) bas demoProbs (demoRun m)

/-- The hypotheses of C87 hold under both rules for blocked agents. -/
example (bas : Bool) : (drainAt bas 0).initialized = true ∧ (drainAt bas 0).bas = bas ∧
    (∀ k ∈ [0, 2], ((drainAt bas 0).qs k).active = true) ∧
    (∀ i (t : ℕ∞), t < ⊤ → t < drainNet.jit i t) ∧
    ∃ m, ∀ m' ≥ m, ∃ n', (drainAt bas 0).simulate drainNet m' = .ok n' ∧ Empty drainNet n' := by
  have hj : ∀ i (t : ℕ∞), t < ⊤ → t < drainNet.jit i t := by
    intro i t ht
    lift t to ℕ using ht.ne
    show ((t : ℕ) : ℕ∞) < t + 1
    exact_mod_cast Nat.lt_succ_self t
  have hi : (drainAt bas 0).initialized = true := by cases bas <;> decide +kernel
  refine ⟨hi, by cases bas <;> decide +kernel, by cases bas <;> decide +kernel, hj, ?_⟩
  exact C87_runs_empty drainNet_ok drainNet_fin hj drainNet_acyclic (b := fun _ => true)
    (reachNet _ _ _ _ _ demoProbs_ok) hi (fun _ k hk _ => drainNet_progress hk) fun k _ _ => ⟨2, rfl⟩

/-- It is not trivial: agents are created and blocked on the way. -/
example : (everyone drainNet (drainAt true 5).qs).length = 4 ∧ ((drainAt true 5).qs 1).numBlocked = 1 ∧
    (everyone drainNet (drainAt true 10).qs).length = 1 ∧ everyone drainNet (drainAt true 11).qs = [] ∧
    (everyone drainNet (drainAt false 10).qs).length = 1 ∧ everyone drainNet (drainAt false 11).qs = [] := by
  decide +kernel

/-! ## Why repeated services must get somewhere -/

/-- Queue 0, whose services take no time, leads to a LossQueue 1 with services of length 7 and room for one; NullQueue 2. -/
def zeroNet : NetCfg ℕ∞ Nat where
  nE := 3
  qc k := { (match k with
    | 0 => demoQ .server 0 1 0 1 2 0 .inf
    | 1 => demoQ .loss 1 2 1 2 5 7 (.fin 0)
    | _ => demoQ .null 2 2 k 0 1 1 .inf) with activeCap := .fin 3 }
  outEdges v := match v with
    | 0 => [0]
    | 1 => [1]
    | _ => [2]
  maxAgents := .inf
  unif i := i % 3
  jit _ t := t + 1
  garbage _ _ := (0, 0)

def zeroProbs (_ : Nat) : List Nat := [1]
def zeroRun (m : Nat) : List (NetOp Nat) :=
  .initialise (fun l _ => l) (.queues [0]) :: List.replicate m .step
abbrev zeroAt (m : Nat) : Net ℕ∞ Nat := resNet zeroNet (fun _ => true) false zeroProbs (zeroRun m)

theorem zeroNet_cases {k : Nat} (hk : k < zeroNet.nE) : k = 0 ∨ k = 1 ∨ k = 2 := by
  have : k < 3 := hk
  omega

theorem zeroNet_ok : zeroNet.Ok where
  idx := by decide
  kinds := by unfold Simple; decide
  fwd := by
    intro k hk
    refine ⟨fun n t => ?_, fun n t => ?_⟩ <;> rcases zeroNet_cases hk with rfl | rfl | rfl <;> exact le_self_add
  out := by unfold Simple; decide
  outLt := by unfold Simple; decide
  jit := fun _ _ => le_self_add

theorem zeroNet_fin : zeroNet.FinSvc where
  svc := by
    intro k hk _ i t ht
    rcases zeroNet_cases hk with rfl | rfl | rfl
    · exact WithTop.add_lt_top.mpr ⟨ht, ENat.natCast_lt_top 0⟩
    · exact WithTop.add_lt_top.mpr ⟨ht, ENat.natCast_lt_top 7⟩
    · exact WithTop.add_lt_top.mpr ⟨ht, ENat.natCast_lt_top 1⟩
  jit := fun _ t ht => WithTop.add_lt_top.mpr ⟨ht, ENat.natCast_lt_top 1⟩
  servers := by
    intro k hk _ m hm
    have : (zeroNet.qc k).servers = .fin 1 := by rcases zeroNet_cases hk with rfl | rfl | rfl <;> rfl
    rw [this] at hm
    cases hm
    decide
  buffer := by
    intro k hk _ m hm
    have : (zeroNet.qc k).buffer = .inf ∨ (zeroNet.qc k).buffer = .fin 0 := by
      rcases zeroNet_cases hk with rfl | rfl | rfl
      · exact .inl rfl
      · exact .inr rfl
      · exact .inl rfl
    rcases this with h | h <;> rw [h] at hm <;> cases hm
    decide

/-- At time 4 the agent at queue 0 is blocked, is served again, which takes no time, is blocked... -/
structure Stuck (n : Net ℕ∞ Nat) : Prop where
  bas : n.bas = false
  t0 : (n.qs 0).time = 4
  t1 : 4 < (n.qs 1).time
  t2 : 4 < (n.qs 2).time
  full : atCapacity (zeroNet.qc 1) (n.qs 1) = true
  arr : 4 < headTime (n.qs 0).arrivals
  dep : (agents (n.qs 0).departures).map (·.time) = [4]

theorem Stuck.step {n n' : Net ℕ∞ Nat} (h : NetReach zeroNet (fun _ => true) n) (hs : Stuck n)
    (hr : n.simulate zeroNet 1 = .ok n') : Stuck n' := by
  have hi := h.inv zeroNet_ok
  have hi' := (h.step .step trivial hr).inv zeroNet_ok
  have hso := (step_of_simulate zeroNet_ok h hr).2
  have hbas := hso.flags.2
  have hfirst : ∀ k, k < zeroNet.nE → (∀ j < zeroNet.nE, (n.qs k).time ≤ (n.qs j).time) → k = 0 := by
    intro k hk hf
    have h0 := hf 0 (by decide)
    rw [hs.t0] at h0
    rcases zeroNet_cases hk with rfl | rfl | rfl
    · rfl
    · exact absurd h0 (not_le.mpr hs.t1)
    · exact absurd h0 (not_le.mpr hs.t2)
  cases hso with
  | empty h0 => exact absurd h0 (nonempty_of_event hi ⟨0, by decide, by rw [hs.t0]; decide⟩)
  | idle k x hp h1 h2 h3 h4 h5 _ h6 =>
    have hq : n'.qs = n.qs := by rw [h6]
    constructor
    · rw [hbas]; exact hs.bas
    all_goals rw [hq]
    exacts [hs.t0, hs.t1, hs.t2, hs.full, hs.arr, hs.dep]
  | arrive k s' h1 h2 h3 h4 h5 h6 =>
    obtain rfl := hfirst k h1 h5
    rcases desc_cases (hi.good 0 h1) with ⟨g1, -⟩ | ⟨-, -, -, -, g1, -⟩ | ⟨g1, -⟩
    · rw [g1] at h6; exact absurd h6 (by decide)
    · have := hs.arr
      rw [← g1, hs.t0] at this
      exact absurd this (lt_irrefl _)
    · rw [g1] at h6; exact absurd h6 (by decide)
  | block k e a s1 d h1 h2 h3 h4 h5 h6 h7 h8 h9 h10 h11 h12 h13 =>
    obtain rfl := hfirst k h1 h7
    have he : e = 1 := by
      rcases zeroNet_cases h3 with rfl | rfl | rfl
      · exact absurd rfl h4
      · rfl
      · exact absurd h10 (by decide)
    subst he
    have q0 : n'.qs 0 = s1 := by rw [h13, Function.update_self]
    have q1 : n'.qs 1 = { n.qs 1 with numBlocked := (n.qs 1).numBlocked + 1 } := by
      rw [h13, Function.update_of_ne (by decide), Function.update_self]
    have q2 : n'.qs 2 = n.qs 2 := by
      rw [h13, Function.update_of_ne (by decide), Function.update_of_ne (by decide)]
    obtain ⟨e1, e2, e3, e4, e5, e6, e7, e8, e9, e10, e11⟩ := h12.same
    obtain ⟨rest, d1, d2⟩ := h12.deps
    have hd1 := hs.dep
    have hl : rest = [] ∧ a.time = 4 := by
      have := (d1.map (·.time))
      rw [hd1] at this
      have := List.perm_singleton.mp this.symm
      simp only [List.map_cons, List.cons.injEq, List.map_eq_nil_iff] at this
      exact ⟨this.2, this.1⟩
    have harr : 4 < headTime s1.arrivals := by rw [e1]; exact hs.arr
    have hdep : (agents s1.departures).map (·.time) = [4] := by
      have := List.perm_singleton.mp (hl.1 ▸ d2)
      rw [this]
      simp only [hs.bas, Bool.false_eq_true, if_false, Option.getD_none, List.map_cons, List.map_nil, List.cons.injEq,
        and_true]
      show a.time + 0 = 4
      rw [hl.2, add_zero]
    have hb : QBase s1 := by rw [← q0]; exact (hi'.good 0 h1).base
    have hhd : headTime s1.departures = 4 := by
      obtain ⟨y, hy⟩ : ∃ y, agents s1.departures = [y] := by
        have : (agents s1.departures).length = 1 := by
          have := congrArg List.length hdep
          simpa using this
        exact List.length_eq_one_iff.mp this
      have hy4 : y.time = 4 := by rw [hy] at hdep; simpa using hdep
      have h1 : headTime s1.departures ≤ 4 := by
        rw [← hy4]; exact hb.okD.le y (by rw [hy]; simp)
      refine le_antisymm h1 ?_
      have := h12.ge
      rw [hs.t0, hb.time, nextTime] at this
      exact this.trans (min_le_right _ _)
    refine ⟨by rw [hbas]; exact hs.bas, ?_, by rw [q1]; exact hs.t1, by rw [q2]; exact hs.t2, by rw [q1]; exact hs.full,
      by rw [q0]; exact harr, by rw [q0]; exact hdep⟩
    rw [q0, hb.time, nextTime, hhd]
    exact min_eq_right harr.le
  | move k e a s1 s2 d h1 h2 h3 h4 h5 h6 h7 h8 h9 =>
    obtain rfl := hfirst k h1 h6
    obtain ⟨e1, d1, g1, g2⟩ := destination_ok zeroNet_ok hi.probs h1 h4 a
    rw [h8] at g1
    simp only [Except.ok.injEq, Prod.mk.injEq] at g1
    obtain ⟨rfl, rfl⟩ := g1
    have he : e = 1 := by simpa [zeroNet, demoQ] using g2
    subst he
    exact absurd (h9 hs.full) (by decide)

/-- C87 needs `Progress`: when services take no time and blocked agents are served again (RS), the network can be stuck
for ever at one time with its events. -/
theorem C87_rs_zero_service_stuck : zeroNet.Ok ∧ zeroNet.FinSvc ∧ (∀ i (t : ℕ∞), t < ⊤ → t < zeroNet.jit i t) ∧
    Acyclic zeroNet (fun k => if k = 0 then 1 else 0) ∧ NetReach zeroNet (fun _ => true) (zeroAt 3) ∧
    (∀ k < zeroNet.nE, ∃ m, (zeroNet.qc k).activeCap = .fin m) ∧
    ∀ m, ∃ n', (zeroAt 3).simulate zeroNet m = .ok n' ∧ (n'.qs 0).time = 4 ∧ everyone zeroNet n'.qs ≠ [] := by
  have hj : ∀ i (t : ℕ∞), t < ⊤ → t < zeroNet.jit i t := by
    intro i t ht
    lift t to ℕ using ht.ne
    show ((t : ℕ) : ℕ∞) < t + 1
    exact_mod_cast Nat.lt_succ_self t
  have hreach : NetReach zeroNet (fun _ => true) (zeroAt 3) := reachNet _ _ _ _ _ (by
    intro v
    match v with
    | 0 | 1 => rfl
    | _ + 2 => rfl)
  refine ⟨zeroNet_ok, zeroNet_fin, hj, by unfold Acyclic Simple; decide, hreach, fun k _ => ⟨3, rfl⟩, fun m => ?_⟩
  have hmain : ∀ m n, NetReach zeroNet (fun _ => true) n → n.initialized = true → Stuck n →
      ∃ n', n.steps zeroNet m = .ok n' ∧ Stuck n' := by
    intro m
    induction m with
    | zero => intro n _ _ hs; exact ⟨n, rfl, hs⟩
    | succ m ih =>
      intro n h hin hs
      obtain ⟨n1, g1, g2, g3⟩ := C41_never_crashes zeroNet_ok (.inl zeroNet_fin) h hin 1
      obtain ⟨n', q1, q2⟩ := ih n1 g2 g3 (hs.step h g1)
      rw [simulate_one, if_pos hin] at g1
      exact ⟨n', by simp only [Net.steps, g1, q1], q2⟩
  have hin : (zeroAt 3).initialized = true := by decide +kernel
  obtain ⟨n', q1, q2⟩ := hmain m (zeroAt 3) hreach hin (by constructor <;> decide +kernel)
  refine ⟨n', by rw [Net.simulate, if_pos hin]; exact q1, q2.t0, fun he => ?_⟩
  obtain ⟨y, hy⟩ : ∃ y, y ∈ agents (n'.qs 0).departures := by
    refine List.exists_mem_of_ne_nil _ fun h => ?_
    have := q2.dep
    rw [h] at this
    simp at this
  have : y.id ∈ everyone zeroNet n'.qs := by
    rw [mem_everyone]
    exact ⟨0, by decide, by simp only [presentIds, List.mem_append, List.mem_map]; tauto⟩
  rw [he] at this
  simp at this

end Verif.NetSpec
