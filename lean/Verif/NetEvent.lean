import Verif.NetStep

/-! # Every simulated event keeps the invariant of a network (proof support) -/

set_option linter.unusedSectionVars false
set_option linter.unusedSimpArgs false
set_option linter.unusedVariables false

namespace Verif

variable {T R : Type*} [LinearOrder T] [OrderTop T] [Zero T] [LinearOrder R] [Add R]

theorem NetInv.initialized {N : NetCfg T R} {b : Nat → Bool} {n : Net T R} (h : NetInv N b n)
    (hs : n.heap.size ≠ 0) : n.initialized = true := by
  cases hi : n.initialized with
  | true => rfl
  | false => exact absurd (h.fresh hi).1 hs

theorem NetInv.mk' {N : NetCfg T R} {b : Nat → Bool} {n : Net T R} (h : Mid N b n (fun _ => False))
    (hI : n.heap.Inv N.nE) (hi : n.initialized = true) : NetInv N b n :=
  ⟨h, .inl hI, fun h' => by rw [hi] at h'; exact absurd h' (by simp)⟩

theorem pendT_congr {s s' : QS T} (h1 : s'.arrivals = s.arrivals) (h2 : s'.departures = s.departures) :
    pendT s' = pendT s := by simp [pendT, h1, h2]

theorem arrival_step {N : NetCfg T R} {b : Nat → Bool} {n : Net T R} (hN : N.Ok) (hi : NetInv N b n)
    {h : PQ T} {x : T} {k : Nat} (hs : Next n k) (P : Popped N b n h x k)
    (hx : x = (n.qs k).time) (hk : Simple (N.qc k)) (hr : Reach (N.qc k) (b k) NetOk (n.qs k))
    (hd : nextEventDescription (N.qc k) (n.qs k) = 1) (hfin : (n.qs k).time < ⊤)
    (ht : (n.qs k).time = headTime (n.qs k).arrivals)
    (hle : headTime (n.qs k).arrivals ≤ headTime (n.qs k).departures) :
    ∃ n', ({ n with heap := h, t := x, numEvents := n.numEvents + 1 } : Net T R).arrival N k = .ok n' ∧ StepOut N n n' ∧ NetInv N b n' := by
  obtain ⟨s0, hs0⟩ : ∃ s0, s0 = if (n.qs k).active && n.maxed N then setInactive (n.qs k) else n.qs k :=
    ⟨_, rfl⟩
  have hr0 : Reach (N.qc k) (b k) NetOk s0 := by rw [hs0]; exact maybeInactive _ hr
  obtain ⟨m1, m2, m3, m4, m5, m6⟩ := maybeInactive_same ((n.qs k).active && n.maxed N) (n.qs k)
  rw [← hs0] at m1 m2 m3 m4 m5 m6
  obtain ⟨s', heff, hr'⟩ := arr_eff hk (hN.fwd k P.lt) hr0 (by rw [m1, m2]; exact hle)
    (by rw [m1, ← ht]; exact hfin)
  have hf' : N.FinSvc → ∀ a ∈ agents s'.departures, a.time < ⊤ := by
    intro hF
    refine heff.fin (by rw [m3, m1, ht]) ?_ ?_
    · rw [m2]; exact hi.findep hF k P.lt
    · intro i; rw [m3]; exact hF.svc k P.lt hk i _ hfin
  have hM := P.mid.upd (m := { n with
      heap := h, t := x, numEvents := n.numEvents + 1,
      qs := Function.update n.qs k s',
      numAgents := Function.update n.numAgents k s'.numTotal }) P.lt (.inl ⟨hk, hr'⟩)
    (fun _ => by rw [heff.cur, m3, ← hx]) (by show x ≤ _; rw [hx, ← m3]; exact heff.ge)
    (fun y hy hlt => heff.pend y (by rw [pendT_congr m1 m2]; exact hy) (by rw [m3, ← hx]; exact hlt))
    hf' rfl rfl rfl rfl (by simp) (fun j hj => by simp [hj])
  replace hM := hM.mono (D' := fun j => j = k) (by rintro j - (h1 | h1); exacts [h1, h1.1]) P.inv.nodes
  have harr : ({ n with heap := h, t := x, numEvents := n.numEvents + 1 } : Net T R).arrival N k = (if s'.time < ⊤ then
      ({ n with
        heap := h, t := x, numEvents := n.numEvents + 1,
        qs := Function.update n.qs k s',
        numAgents := Function.update n.numAgents k s'.numTotal } : Net T R).pushKey N
          (2 * (n.numEvents + 1)) k
      else .ok { n with
        heap := h, t := x, numEvents := n.numEvents + 1,
        qs := Function.update n.qs k s',
        numAgents := Function.update n.numAgents k s'.numTotal }) := by
    have hev : nextEvent (N.qc k) (if (({ n with heap := h, t := x, numEvents := n.numEvents + 1 } : Net T R).qs k).active && ({ n with heap := h, t := x, numEvents := n.numEvents + 1 } : Net T R).maxed N then
        setInactive (({ n with heap := h, t := x, numEvents := n.numEvents + 1 } : Net T R).qs k) else ({ n with heap := h, t := x, numEvents := n.numEvents + 1 } : Net T R).qs k) = .ok (s', none) := by
      have := heff.ev; rw [hs0] at this; exact this
    unfold Net.arrival
    simp only [hev, Net.setQ, Net.setNum, hN.idx k P.lt, Function.update_self]
  have hout : ∀ h', StepOut N n { n with
      heap := h', t := x, numEvents := n.numEvents + 1,
      qs := Function.update n.qs k s',
      numAgents := Function.update n.numAgents k s'.numTotal } := fun h' =>
    .arrive k s' P.lt hs hk hfin (fun j hj => hx ▸ P.min j hj) hd (hs0 ▸ heff) rfl rfl hx rfl rfl
      ⟨rfl, rfl, rfl, rfl⟩
  by_cases hlt : s'.time < ⊤
  · rw [harr, if_pos hlt]
    obtain ⟨h', g1, g2, g3, -⟩ := hM.push hN P.inv (2 * (n.numEvents + 1)) P.lt
      (fun _ => by simpa using hlt)
    refine ⟨_, g1, hout h', NetInv.mk' (g3.mono ?_ g2.nodes) g2 (hi.initialized hs.1)⟩
    rintro j - ⟨h1, h2⟩; exact h2 h1
  · rw [harr, if_neg hlt]
    have hlt' := not_lt_top_iff.mp hlt
    refine ⟨_, rfl, hout h, NetInv.mk' ((hM.drop P.lt (by simpa using hlt') P.left P.leftDead).mono ?_
      P.inv.nodes) P.inv (hi.initialized hs.1)⟩
    rintro j - ⟨h1, h2⟩; exact h2 h1

theorem block_step {N : NetCfg T R} {b : Nat → Bool} {n : Net T R} (hN : N.Ok) (hi : NetInv N b n)
    {h : PQ T} {x : T} {k : Nat} (hs : Next n k) (P : Popped N b n h x k)
    (hx : x = (n.qs k).time) (hk : Simple (N.qc k)) (hr : Reach (N.qc k) (b k) NetOk (n.qs k))
    (hd : nextEventDescription (N.qc k) (n.qs k) = 2) (hfin : (n.qs k).time < ⊤)
    (ht : (n.qs k).time = headTime (n.qs k).departures)
    (hlt : headTime (n.qs k).departures < headTime (n.qs k).arrivals)
    {a : Agent T} (ha : (n.qs k).departures.head? = some (.agent a)) {e2 d : Nat} (he : e2 < N.nE)
    (hdest : n.destination N k a = .ok (e2, d)) (hcap : atCapacity (N.qc e2) (n.qs e2) = true)
    (hne : e2 ≠ k) :
    ∃ n1 n', ({ n with heap := h, t := x, numEvents := n.numEvents + 1, unifCalls := n.unifCalls + d } : Net T R).blocked N k e2 = .ok n1 ∧
      n1.pushBoth N k e2 (n.qs e2).time = .ok n' ∧ StepOut N n n' ∧ NetInv N b n' := by
  have hloss : (N.qc e2).kind = .loss := by
    rcases hN.kinds e2 he with h1 | h1
    · rcases h1 with h1 | h1
      · rw [atCapacity, h1] at hcap; simp at hcap
      · exact h1
    · rw [atCapacity, h1] at hcap; simp at hcap
  have hk2 : Simple (N.qc e2) := .inr hloss
  have hr2 : Reach (N.qc e2) (b e2) NetOk (n.qs e2) := by
    rcases hi.good e2 he with h1 | h1
    · exact h1.2
    · rw [hloss] at h1; exact absurd h1.1 (by simp)
  have hb2 := hr2.base hk2
  have hle2 : (n.qs k).time ≤ headTime (n.qs e2).departures := by
    rw [← hx]
    refine (P.min e2 he).trans ?_
    rw [hb2.time, nextTime]; exact min_le_right _ _
  obtain ⟨s1, a', heff, hr1⟩ := delay_eff hk (hN.fwd k P.lt) hr hlt
    (if n.bas then some (N.jit n.jitCalls (headTime (n.qs e2).departures)) else none) (by
      intro y hy
      split at hy
      · simp only [Option.some.injEq] at hy
        rw [← hy]; exact hle2.trans (hN.jit _ _)
      · simp at hy)
  have haa : a' = a := by have := heff.head; rw [ha] at this; simpa using this.symm
  subst haa
  have hfull : N.FinSvc → headTime (n.qs e2).departures < ⊤ := by
    intro hF
    have h1 : (((n.qs e2).numServers).add (N.qc e2).buffer).lt (n.qs e2).numSystem = false := by
      rw [atCapacity, hloss] at hcap
      simpa using hcap
    exact hb2.okD.headTime_lt (busy hF he hk2 hr2 (full_pos hF he hk2 hr2 h1)) (hi.findep hF e2 he)
  have hf1 : N.FinSvc → ∀ b ∈ agents s1.departures, b.time < ⊤ := by
    intro hF y hy
    obtain ⟨rest, e1, e2'⟩ := heff.deps
    rcases List.mem_cons.mp (e2'.mem_iff.mp hy) with rfl | hy
    · simp only
      split
      · exact hF.jit _ _ (hfull hF)
      · exact hF.svc k P.lt hk _ _ (hi.findep hF k P.lt _ (e1.mem_iff.mpr (by simp)))
    · exact hi.findep hF k P.lt y (e1.mem_iff.mpr (by simp [hy]))
  obtain ⟨t2, ht2⟩ : ∃ t2 : QS T, t2 = { n.qs e2 with numBlocked := (n.qs e2).numBlocked + 1 } := ⟨_, rfl⟩
  have hrt : Reach (N.qc e2) (b e2) NetOk t2 :=
    hr2.step .note trivial (by simp [QOp.run, hcap, ht2])
  have f1 : t2.time = (n.qs e2).time := by rw [ht2]
  have f2 : t2.departures = (n.qs e2).departures := by rw [ht2]
  have f3 : t2.arrivals = (n.qs e2).arrivals := by rw [ht2]
  have f4 : t2.currentT = (n.qs e2).currentT := by rw [ht2]
  have f5 : t2.numTotal = (n.qs e2).numTotal := by rw [ht2]
  have hM := P.mid.upd (m := { n with heap := h, t := x, numEvents := n.numEvents + 1, qs := Function.update n.qs e2 t2 }) he (.inl ⟨hk2, hrt⟩)
    (fun hs => by rw [f4]; exact P.mid.clk e2 he hs) (by rw [f1]; exact P.min e2 he)
    (fun y hy _ => by rw [pendT_congr f3 f2]; exact hy)
    (fun hF => by rw [f2]; exact hi.findep hF e2 he) rfl rfl rfl rfl
    (by rw [f5]; exact hi.num e2 he) (fun j hj => rfl)
  replace hM := hM.mono (D' := fun j => j = k) (by
    rintro j - (h1 | h1)
    · exact h1
    · exact absurd (show t2.time = (n.qs e2).time from f1) h1.2) P.inv.nodes
  have hM2 := hM.upd (m := { n with
      heap := h, t := x, numEvents := n.numEvents + 1,
      unifCalls := n.unifCalls + d,
      jitCalls := if n.bas then n.jitCalls + 1 else n.jitCalls,
      qs := Function.update (Function.update n.qs e2 t2) k s1 }) P.lt (.inl ⟨hk, hr1⟩)
    (fun hs => by rw [heff.same.2.2.1]; exact P.mid.clk k P.lt hs)
    (by show x ≤ _; rw [hx]; exact heff.ge)
    (fun y hy hlt => by
      refine heff.pend y ?_ (by rw [← hx]; exact hlt)
      simpa [Function.update_of_ne (Ne.symm hne)] using hy)
    hf1 rfl rfl rfl rfl (by rw [heff.same.2.2.2.1]; exact hi.num k P.lt) (fun j hj => rfl)
  have hblk : ({ n with heap := h, t := x, numEvents := n.numEvents + 1, unifCalls := n.unifCalls + d } : Net T R).blocked N k e2 = .ok
      { n with
        heap := h, t := x, numEvents := n.numEvents + 1,
        unifCalls := n.unifCalls + d,
        jitCalls := if n.bas then n.jitCalls + 1 else n.jitCalls,
        qs := Function.update (Function.update n.qs e2 t2) k s1 } := by
    have hev := heff.ev
    unfold Net.blocked
    simp only [Net.setQ, Function.update_self, Function.update_of_ne hne,
      Function.update_of_ne (Ne.symm hne), Function.update_idem, hev, ht2]
  have hte2 : (Function.update (Function.update n.qs e2 t2) k s1 e2).time = (n.qs e2).time := by
    rw [Function.update_of_ne hne, Function.update_self, f1]
  obtain ⟨h', g1, g2, g3⟩ := (hM2.mono (D' := fun j => j = k ∨ (j = e2 ∧
      (Function.update (Function.update n.qs e2 t2) k s1 e2).time ≠ (n.qs e2).time))
      (by rintro j - (h1 | h1); exacts [.inl h1, .inl h1.1]) P.inv.nodes).pushBoth hN P.inv P.lt he P.left
      P.leftDead (fun _ h' => absurd hte2 h')
  refine ⟨_, _, hblk, g1, ?_, NetInv.mk' g3 g2 (hi.initialized hs.1)⟩
  exact .block k e2 a' s1 d P.lt hs he (Ne.symm hne) hk hfin (fun j hj => hx ▸ P.min j hj) hd hdest hloss hcap
    heff (by simp only [ht2]) rfl hx rfl rfl ⟨rfl, rfl, rfl, rfl⟩

theorem move_step {N : NetCfg T R} {b : Nat → Bool} {n : Net T R} (hN : N.Ok) (hi : NetInv N b n)
    {h : PQ T} {x : T} {k : Nat} (hs : Next n k) (P : Popped N b n h x k)
    (hx : x = (n.qs k).time) (hk : Simple (N.qc k)) (hr : Reach (N.qc k) (b k) NetOk (n.qs k))
    (hd : nextEventDescription (N.qc k) (n.qs k) = 2) (hfin : (n.qs k).time < ⊤)
    (ht : (n.qs k).time = headTime (n.qs k).departures)
    (hlt : headTime (n.qs k).departures < headTime (n.qs k).arrivals)
    {a : Agent T} (ha : (n.qs k).departures.head? = some (.agent a)) {e2 d : Nat} (he : e2 < N.nE)
    (hout : e2 ∈ N.outEdges (N.qc k).edge.tgt)
    (hdest : n.destination N k a = .ok (e2, d)) (hcap : atCapacity (N.qc e2) (n.qs e2) = true → e2 = k) :
    ∃ n1 n', ({ n with heap := h, t := x, numEvents := n.numEvents + 1, unifCalls := n.unifCalls + d } : Net T R).move N k e2 x = .ok n1 ∧
      n1.pushBoth N k e2 (n.qs e2).time = .ok n' ∧ StepOut N n n' ∧ NetInv N b n' := by
  obtain ⟨s1, a', hdep, hr1⟩ := dep_eff hk (hN.fwd k P.lt) hr hlt
  have haa : a' = a := by have := hdep.head; rw [ha] at this; simpa using this.symm
  subst haa
  have hat : a'.time = x := by rw [hdep.time, hx]
  have haeq : ({ a' with time := x } : Agent T) = a' := by rw [← hat]
  have hf1 : N.FinSvc → ∀ b ∈ agents s1.departures, b.time < ⊤ := fun hF =>
    hdep.spec.fin (hi.findep hF k P.lt) (fun i => hF.svc k P.lt hk _ _ (by rw [hat, hx]; exact hfin))
  have hMA := P.mid.upd (m := { n with
      heap := h, t := x, numEvents := n.numEvents + 1,
      qs := Function.update n.qs k s1,
      numAgents := Function.update n.numAgents k s1.numTotal }) P.lt (.inl ⟨hk, hr1⟩)
    (fun _ => by rw [hdep.cur, ← hx]) (by show x ≤ _; rw [hx]; exact hdep.ge)
    (fun y hy hlt => hdep.pend y hy (by rw [← hx]; exact hlt))
    hf1 rfl rfl rfl rfl (by simp) (fun j hj => by simp [hj])
  replace hMA := hMA.mono (D' := fun j => j = k) (by rintro j - (h1 | h1); exacts [h1, h1.1]) P.inv.nodes
  obtain ⟨q2, hq2⟩ : ∃ q2, q2 = Function.update n.qs k s1 e2 := ⟨_, rfl⟩
  have good2 : QGood (N.qc e2) (b e2) q2 := by rw [hq2]; exact hMA.good e2 he
  have tau2 : x ≤ q2.time := by rw [hq2]; exact hMA.tau e2 he
  have fin2 : N.FinSvc → ∀ b ∈ agents q2.departures, b.time < ⊤ := by
    intro hF; rw [hq2]; exact hMA.findep hF e2 he
  obtain ⟨off, hoff⟩ : ∃ off, off = stopAt N n k e2 s1.numTotal := ⟨_, rfl⟩
  -- the receiving queue
  have hrecv : ∃ m s2, addArrivalAgent (N.qc e2) q2 a' = .ok m ∧
      nextEvent (N.qc e2) (if off m then setInactive m else m) = .ok (s2, none) ∧
      RecvOut (N.qc e2) off q2 s2 a' ∧ QGood (N.qc e2) (b e2) s2 ∧
      (Simple (N.qc e2) → s2.currentT ≤ x) ∧ x ≤ s2.time ∧
      (∀ y ∈ pendT q2, x < y → y ∈ pendT s2) ∧
      (N.FinSvc → ∀ a ∈ agents s2.departures, a.time < ⊤) ∧
      (N.NoInf → s2.time ≠ (n.qs e2).time → s2.time < ⊤) := by
    rcases good2 with ⟨hk2, hr2⟩ | ⟨hk2, hn2⟩
    · have clk2 : q2.currentT ≤ x := by rw [hq2]; exact hMA.clk e2 he hk2
      obtain ⟨s2, heff, hr2'⟩ := recv_eff hk2 (hN.fwd e2 he) hr2 (by rw [hat]; exact clk2)
        (by rw [hat]; exact tau2) (by rw [hat, hx]; exact hfin) off
      obtain ⟨m, a1, a2, a3, a4, a5, a6, a7, a8, a9, a10, a11, a12, a13⟩ := heff.mid
      have hrm0 : Reach (N.qc e2) (b e2) NetOk m := hr2.step (.handover a')
        (by show q2.currentT ≤ a'.time; rw [hat]; exact clk2) (by simp [QOp.run, a1])
      have hrm := maybeInactive (off m) hrm0
      obtain ⟨m1, m2, m3, -, -, -⟩ := maybeInactive_same (off m) m
      have hbm := hrm0.base hk2
      have hm_le : headTime m.arrivals ≤ a'.time := hbm.okA.le a' (a8.mem_iff.mpr (by simp))
      have hm_eq : m.time = headTime m.arrivals := by
        refine le_antisymm ?_ (by rw [a12]; exact hm_le)
        rw [hbm.time, nextTime]; exact min_le_left _ _
      have hf2 : N.FinSvc → ∀ a ∈ agents s2.departures, a.time < ⊤ := by
        intro hF
        refine a13.fin (by rw [m3, m1, hm_eq]) ?_ ?_
        · rw [m2, a9]; exact fin2 hF
        · intro i; rw [m3, a12, hat]; exact hF.svc e2 he hk2 i _ (by rw [hx]; exact hfin)
      refine ⟨m, s2, a1, a13.ev, .queue hk2 heff, .inl ⟨hk2, hr2'⟩,
        fun _ => by rw [heff.cur, hat], by rw [← hat]; exact heff.ge,
        fun y hy hlt => heff.pend y hy (by rw [hat]; exact hlt), hf2, ?_⟩
      intro hF hne
      by_cases hke : e2 = k
      · rcases hF with hF | hF
        · refine a13.time_lt hF he hk2 hrm hr2' ?_ (hf2 hF)
          rw [m1]; exact hm_le.trans_lt (by rw [hat, hx]; exact hfin)
        · exact absurd (hke ▸ hout) (hF k P.lt hk)
      · have hqe : q2 = n.qs e2 := by rw [hq2, Function.update_of_ne hke]
        by_cases hold : (n.qs e2).time < ⊤
        · exact heff.fin (by rw [hqe]; exact hold)
        · rw [not_lt_top_iff.mp hold] at hne; exact lt_top_iff_ne_top.mpr hne
    · have hke : e2 ≠ k := by
        rintro rfl
        exact hk.ne_null hk2
      have hqe : q2 = n.qs e2 := by rw [hq2, Function.update_of_ne hke]
      obtain ⟨m, a1, a2, a3, a4⟩ := null_recv hk2 hn2 a' off
      refine ⟨m, _, a1, a4, .null m hk2 a1 a3 a2 rfl, .inr ⟨hk2, a3⟩, ?_, ?_, ?_, ?_, ?_⟩
      · intro h1; exact absurd hk2 h1.ne_null
      · rw [a3.1]; exact le_top
      · intro y hy hlt
        obtain ⟨-, -, -, h4, -, h6⟩ := hn2
        rcases mem_pendT.mp hy with ⟨z, hz, -⟩ | ⟨z, hz, -⟩
        · rw [h4] at hz; simp [agents] at hz
        · rw [h6] at hz; simp [agents] at hz
      · intro _ y hy
        rw [a3.2.2.2.2.2] at hy; simp [agents] at hy
      · intro _ hne
        rw [a3.1] at hne
        rw [← hqe, hn2.1] at hne
        exact absurd rfl hne
  obtain ⟨m, s2, r1, r2, r3, r4, r5, r6, r7, r8, r9⟩ := hrecv
  have hMB := hMA.upd (m := { n with
      heap := h, t := x, numEvents := n.numEvents + 1,
      unifCalls := n.unifCalls + d,
      qs := Function.update (Function.update n.qs k s1) e2 s2,
      numAgents := Function.update (Function.update n.numAgents k s1.numTotal) e2 s2.numTotal }) he r4 r5 r6
    (by show ∀ y ∈ pendT (Function.update n.qs k s1 e2), _; rw [← hq2]; exact r7) r8 rfl rfl rfl rfl (by simp) (fun j hj => by simp [hj])
  have hmv : ({ n with heap := h, t := x, numEvents := n.numEvents + 1, unifCalls := n.unifCalls + d } : Net T R).move N k e2 x = .ok
      { n with
        heap := h, t := x, numEvents := n.numEvents + 1,
        unifCalls := n.unifCalls + d,
        qs := Function.update (Function.update n.qs k s1) e2 s2,
        numAgents := Function.update (Function.update n.numAgents k s1.numTotal) e2 s2.numTotal } := by
    unfold Net.move
    have hoffm : off m = (m.active && Net.maxed N { n with
        numAgents := Function.update (Function.update n.numAgents k s1.numTotal) e2 m.numTotal }) := by
      rw [hoff]; rfl
    rw [hoffm] at r2
    have key : ∀ z : Net T R, z.numAgents =
        Function.update (Function.update n.numAgents k s1.numTotal) e2 m.numTotal →
        nextEvent (N.qc e2) (if (m.active && Net.maxed N z) = true then setInactive m else m) =
          .ok (s2, none) := by
      intro z hz
      have : Net.maxed N z = Net.maxed N { n with
        numAgents := Function.update (Function.update n.numAgents k s1.numTotal) e2 m.numTotal } := by
        unfold Net.maxed Net.total; rw [hz]
      rw [this]; exact r2
    by_cases hke : e2 = k
    · subst hke
      simp only [Function.update_idem] at key
      simp only [Function.update_self] at hq2
      subst hq2
      simp only [hdep.ev, Net.setQ, Function.update_self, haeq, r1, Net.setNum, hN.idx e2 he,
        Function.update_idem, key]
    · have hke' := Ne.symm hke
      rw [hq2] at r1
      simp only [hdep.ev, Net.setQ, haeq, r1, Net.setNum, hN.idx k P.lt, Function.update_idem,
        Function.update_self, Function.update_of_ne hke', key]
  have hse : (Function.update (Function.update n.qs k s1) e2 s2 e2).time = s2.time := by
    rw [Function.update_self]
  obtain ⟨h', g1, g2, g3⟩ := (hMB.mono (D' := fun j => j = k ∨ (j = e2 ∧
      (Function.update (Function.update n.qs k s1) e2 s2 e2).time ≠ (n.qs e2).time))
      (by
        rintro j - (h1 | ⟨h1, h2⟩)
        · exact .inl h1
        · by_cases hke : e2 = k
          · exact .inl (h1.trans hke)
          · refine .inr ⟨h1, ?_⟩
            rw [hse]
            simpa [Function.update_of_ne hke] using h2) P.inv.nodes).pushBoth hN P.inv P.lt he P.left
      P.leftDead (fun hF h' => by
        show (Function.update (Function.update n.qs k s1) e2 s2 e2).time < ⊤
        rw [hse]
        exact r9 hF (by rw [← hse]; exact h'))
  refine ⟨_, _, hmv, g1, ?_, NetInv.mk' g3 g2 (hi.initialized hs.1)⟩
  exact .move k e2 a' s1 s2 d P.lt hs he hk hfin (fun j hj => hx ▸ P.min j hj) hd hdest hcap hdep
    (by rw [← hq2, ← hoff]; exact r3) rfl rfl hx rfl rfl ⟨rfl, rfl, rfl, rfl⟩

/-- One call of `_simulate_next_event`. -/
theorem step_spec {N : NetCfg T R} {b : Nat → Bool} {n : Net T R} (hN : N.Ok) (hi : NetInv N b n)
    (hin : n.initialized = true) :
    (∃ n', n.step N = .ok n' ∧ StepOut N n n' ∧ NetInv N b n') ∨
      (n.step N = .error (.py .typeError) ∧ ¬ N.NoInf ∧ ∀ h p, n.heap.pop ≠ some (h, some p)) := by
  unfold Net.step
  by_cases hs : n.heap.size = 0
  · left
    rw [if_pos hs]
    refine ⟨_, rfl, .empty hs rfl, ?_⟩
    have hst := PQ.stored_nil hs
    have htop : ∀ k < N.nE, (n.qs k).time = ⊤ := by
      intro k hk
      by_contra h1
      have := ((hi.node k hk (by simp)).1 (lt_top_iff_ne_top.mpr h1)).2
      rw [hst] at this; simp at this
    have hno : ∀ p, p ∉ n.heap.stored := by rw [hst]; simp
    refine ⟨⟨hi.good, hi.num, ?_, ?_, fun _ _ _ => le_top, fun k hk => by rw [htop k hk], hi.probs, ?_, ?_, ?_,
      hi.findep⟩, hi.heap, fun h => by simp only at h; rw [hin] at h; exact absurd h (by simp)⟩
    · intro k hk _
      exact ⟨fun h => absurd h (by simp [htop k hk]), fun y hy => absurd hy (hno _)⟩
    · intro p hp; exact absurd hp (hno _)
    · intro _ y k hy; exact absurd hy (hno _)
    · intro _ y k hy; exact absurd hy (hno _)
    · intro _ y k _ hy; exact absurd hy (hno _)
  · rw [if_neg hs]
    obtain ⟨h, res, g1, g2, g3⟩ := popped hi hs
    rw [g1]
    cases res with
    | none => right; exact ⟨rfl, g2 rfl, fun h' p' h0 => by simp at h0⟩
    | some p =>
      obtain ⟨x, k⟩ := p
      left
      have P := g3 x k rfl
      simp only
      rw [if_neg (not_le.mpr P.lt)]
      rcases desc_cases (hi.good k P.lt) with ⟨d1, d2⟩ | ⟨d1, d2, d3, d4, d5, d6⟩ | ⟨d1, d2, d3, d4, d5, d6⟩
      · rw [d1]
        simp only [show ¬ ((0 : Nat) = 2) by omega, show ¬ ((0 : Nat) = 1) by omega, if_false]
        refine ⟨_, rfl, .idle k x h P.lt hs d2 ?_ P.min g1 rfl, ?_⟩
        · rcases P.cases with h1 | h1
          · exact .inr (h1.trans d2)
          · exact .inl h1.2
        · refine NetInv.mk' ((P.mid.drop P.lt d2 P.left P.leftDead).mono ?_ P.inv.nodes) P.inv
            (hi.initialized hs)
          rintro j - ⟨h1, h2⟩; exact h2 h1
      · have hx : x = (n.qs k).time := by
          rcases P.cases with h1 | h1
          · exact h1
          · rw [h1.1] at d4; exact absurd d4 (lt_irrefl _)
        rw [d1]
        simp only [show ¬ ((1 : Nat) = 2) by omega, if_false, if_true]
        exact arrival_step hN hi ⟨hs, h, x, g1⟩ P hx d2 d3 d1 d4 d5 d6
      · have hx : x = (n.qs k).time := by
          rcases P.cases with h1 | h1
          · exact h1
          · rw [h1.1] at d4; exact absurd d4 (lt_irrefl _)
        rw [d1]
        simp only [if_true]
        obtain ⟨_, a, hdep, -⟩ := dep_eff d2 (hN.fwd k P.lt) d3 d6
        obtain ⟨e2, d, q1, q2⟩ := destination_ok hN hi.probs P.lt d2 a
        have he := hN.outLt k P.lt d2 e2 q2
        unfold Net.departure
        simp only [hdep.head]
        have hq1 : Net.destination N ({ n with heap := h, t := x, numEvents := n.numEvents + 1 } : Net T R) k a
            = .ok (e2, d) := q1
        simp only [hq1, if_neg (not_le.mpr he), hN.idx k P.lt]
        by_cases hc : atCapacity (N.qc e2) (n.qs e2) = true ∧ e2 ≠ k
        · rw [if_pos hc]
          obtain ⟨n1, n', b1, b2, b3, b4⟩ := block_step hN hi ⟨hs, h, x, g1⟩ P hx d2 d3 d1 d4 d5 d6 hdep.head he q1 hc.1 hc.2
          exact ⟨n', by rw [b1]; exact b2, b3, b4⟩
        · rw [if_neg hc]
          obtain ⟨n1, n', b1, b2, b3, b4⟩ := move_step hN hi ⟨hs, h, x, g1⟩ P hx d2 d3 d1 d4 d5 d6 hdep.head he q2 q1
            (fun h1 => by by_contra h2; exact hc ⟨h1, h2⟩)
          exact ⟨n', by rw [b1]; exact b2, b3, b4⟩

end Verif
