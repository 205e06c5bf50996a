import Verif.NetEvent
import Verif.Props.PQ

/-! # Histories of a network (proof support) -/

set_option linter.unusedSectionVars false
set_option linter.unusedSimpArgs false
set_option linter.unusedVariables false

namespace Verif

variable {T R : Type*} [LinearOrder T] [OrderTop T] [Zero T] [LinearOrder R] [Add R]

/-- What a user can do with a network. `step` is `simulate(n=1)`; `setProbs p` is the effect of
`set_transitions` (`p v` lists the probabilities of vertex `v` in the order of its out-edges); `setBlocking`
is the property `blocking`; `copy` goes on with the copy; `setServers k n` and `setInactive k` are
`edge2queue[k].set_num_servers(n)` (an exception is caught) and `edge2queue[k].set_inactive()`. -/
inductive NetOp (R : Type*)
  | step
  | initialise (pick : List Nat → Nat → List Nat) (a : Net.InitArg)
  | clear
  | collect (b : Bool) (ks : List Nat)
  | clearData (ks : List Nat)
  | setProbs (p : Nat → List R)
  | setBlocking (bas : Bool)
  | copy
  | setServers (k : Nat) (n : PyNum)
  | setInactive (k : Nat)

/-- Perform an operation. -/
def NetOp.run (N : NetCfg T R) (n : Net T R) : NetOp R → Except DestErr (Net T R)
  | .step => n.simulate N 1
  | .initialise pick a => n.initialise N pick a
  | .clear => .ok (n.clear N)
  | .collect b ks => .ok (n.collect b ks)
  | .clearData ks => .ok (n.clearData ks)
  | .setProbs p => .ok { n with probs := p }
  | .setBlocking bas => .ok { n with bas := bas }
  | .copy => match n.copy N with
    | none => .error (.py .indexError)
    | some n => .ok n
  | .setServers k m => .ok (n.setQ k (setNumServers (N.qc k) (n.qs k) m).1)
  | .setInactive k => .ok (n.setQ k (Verif.setInactive (n.qs k)))

/-- Operations considered: `initialize` on a new or cleared network, or on a running one if no queue then has an event
before the clock (see C109_clock_runs_back otherwise); queues that exist; one
probability for every out-edge; `set_num_servers` only if the time of the next event of the queue stays the same (e.g.
because nobody waits there or the number is lowered; see C79_clock_runs_back otherwise). -/
def NetOp.Allowed (N : NetCfg T R) (n : Net T R) : NetOp R → Prop
  | .initialise pick a => n.initialized = false ∨
      ∀ n', n.initialise N pick a = .ok n' → ∀ k < N.nE, n.t ≤ (n'.qs k).time
  | .collect _ ks => ∀ k ∈ ks, k < N.nE
  | .clearData ks => ∀ k ∈ ks, k < N.nE
  | .setProbs p => ∀ v, (p v).length = (N.outEdges v).length
  | .setServers k m => k < N.nE ∧ (setNumServers (N.qc k) (n.qs k) m).1.time = (n.qs k).time
  | .setInactive k => k < N.nE
  | _ => True

/-- Histories of a network from construction; `b k` is the parameter `collect_data` of queue `k`. -/
inductive NetReach (N : NetCfg T R) (b : Nat → Bool) : Net T R → Prop
  | new (bas : Bool) (probs : Nat → List R) : (∀ v, (probs v).length = (N.outEdges v).length) →
      NetReach N b (Net.init N b bas probs)
  | step {n n' : Net T R} (op : NetOp R) : NetReach N b n → op.Allowed N n → op.run N n = .ok n' →
      NetReach N b n'

/-- The part of the invariant that does not concern the scheduler. -/
def Core (N : NetCfg T R) (b : Nat → Bool) (n : Net T R) : Prop :=
  Mid N b { n with heap := PQ.empty } (fun _ => True)

theorem stored_empty : (PQ.empty : PQ T).stored = [] := rfl

theorem Mid.core {N : NetCfg T R} {b : Nat → Bool} {n : Net T R} {D : Nat → Prop} (h : Mid N b n D) :
    Core N b n :=
  ⟨h.good, h.num, fun _ _ h => absurd trivial h, by simp [stored_empty], h.clk, h.tau, h.probs,
    by simp [stored_empty], by simp [stored_empty], fun _ _ _ h => absurd trivial h, h.findep⟩

/-- An empty scheduler is right when no queue has an event. -/
theorem Core.ofEmpty {N : NetCfg T R} {b : Nat → Bool} {n : Net T R} (h : Core N b n)
    (hs : n.heap.size = 0) (ht : ∀ k < N.nE, (n.qs k).time = ⊤) : Mid N b n (fun _ => False) := by
  have hno : ∀ p, p ∉ n.heap.stored := by rw [PQ.stored_nil hs]; simp
  refine ⟨h.good, h.num, fun k hk _ => ⟨fun h' => absurd h' (by simp [ht k hk]), fun y hy => absurd hy (hno _)⟩,
    fun p hp => absurd hp (hno _), h.clk, h.tau, h.probs, fun _ y k hy => absurd hy (hno _),
    fun _ y k hy => absurd hy (hno _), fun _ y k _ hy => absurd hy (hno _), h.findep⟩

theorem mem_keys {N : NetCfg T R} (hN : N.Ok) {n : Net T R} {y : T} {k : Nat} :
    (y, k) ∈ n.keys N ↔ k < N.nE ∧ (n.qs k).time < ⊤ ∧ y = (n.qs k).time := by
  simp only [Net.keys, List.mem_map, List.mem_filter, List.mem_range, decide_eq_true_eq, Prod.mk.injEq]
  constructor
  · rintro ⟨j, ⟨h1, h2⟩, h3, h4⟩
    rw [hN.idx j h1] at h4
    subst h4
    exact ⟨h1, h2, h3.symm⟩
  · rintro ⟨h1, h2, h3⟩
    exact ⟨k, ⟨h1, h2⟩, h3.symm, hN.idx k h1⟩

/-- The scheduler built by `initialize` and `copy`. -/
theorem Core.rebuild {N : NetCfg T R} (hN : N.Ok) {b : Nat → Bool} {n : Net T R} (h : Core N b n) :
    ∃ h', PQ.init (n.keys N) N.nE = some h' ∧ Mid N b { n with heap := h' } (fun _ => False) ∧
      (h'.Inv N.nE ∨ h'.size = 0) ∧ h'.stored.Perm (n.keys N) ∧ h'.size = (n.keys N).length := by
  have hk : ∀ p ∈ n.keys N, p.2 < N.nE := fun p hp => ((mem_keys hN).mp hp).1
  obtain ⟨h', q, g1, g2, g3, g4, g5⟩ := PQ.init_spec (n.keys N) N.nE hk
  have hsz : h'.size = (n.keys N).length := by
    simp only [PQ.init] at g1
    split at g1
    · simp at g1
    · split at g1
      · simp at g1
      · simp only [Option.some.injEq] at g1; rw [← g1]
  have hlive : ∀ y k, (y, k) ∈ h'.stored → h'.Live (y, k) := by
    intro y k hy
    have hy' := g4.mem_iff.mp hy
    have hm := (mem_keys hN).mp hy'
    unfold PQ.Live
    rw [g3, PQSpec.initTimes_get N.nE (n.keys N) (List.replicate N.nE ⊤) q (by simp) g2 k hm.1 ⊤
      (by simp [hm.1])]
    have hall : ∀ p ∈ (n.keys N).filter (fun p => p.2 = k), p.1 = y := by
      intro p hp
      simp only [List.mem_filter, decide_eq_true_eq] at hp
      obtain ⟨p1, p2⟩ := p
      obtain ⟨hp1, rfl⟩ := hp
      exact ((mem_keys hN).mp hp1).2.2.trans hm.2.2.symm
    cases hl : ((n.keys N).filter (fun p => p.2 = k)).getLast? with
    | none =>
      rw [List.getLast?_eq_none_iff] at hl
      have : (y, k) ∈ (n.keys N).filter (fun p => p.2 = k) := by simp [hy']
      rw [hl] at this; simp at this
    | some p =>
      have := List.mem_of_getLast? hl
      simp [hall p this]
  refine ⟨h', g1, ⟨h.good, h.num, ?_, ?_, h.clk, h.tau, h.probs, ?_, ?_, ?_, h.findep⟩, ?_, g4, hsz⟩
  · intro k hk' _
    refine ⟨fun ht => ?_, fun y hy _ => .inl ((mem_keys hN).mp (g4.mem_iff.mp hy)).2.2⟩
    have : ((n.qs k).time, k) ∈ h'.stored := g4.mem_iff.mpr ((mem_keys hN).mpr ⟨hk', ht, rfl⟩)
    exact ⟨hlive _ _ this, this⟩
  · rintro ⟨y, k⟩ hp
    have hm := (mem_keys hN).mp (g4.mem_iff.mp hp)
    show n.t ≤ y
    rw [hm.2.2]; exact h.tau k hm.1
  · intro _ y k hy _
    have hm := (mem_keys hN).mp (g4.mem_iff.mp hy)
    show y ∈ pendT (n.qs k)
    rw [hm.2.2]; exact (h.good k hm.1).base.mem_pend hm.2.1
  · intro _ y k hy
    have hm := (mem_keys hN).mp (g4.mem_iff.mp hy)
    rw [hm.2.2]; exact hm.2.1
  · intro _ y k _ hy hl; exact absurd (hlive y k hy) hl
  · by_cases hne : n.keys N = []
    · right; rw [hsz, hne]; rfl
    · exact .inl (g5 hne)

/-- Changes of a queue that do not concern events. -/
theorem NetInv.change {N : NetCfg T R} {b : Nat → Bool} {n : Net T R} (h : NetInv N b n) {k : Nat}
    (hk : k < N.nE) {s' : QS T} (hg : QGood (N.qc k) (b k) s') (h1 : ∀ y ∈ pendT (n.qs k), y ∈ pendT s')
    (h2 : N.FinSvc → ∀ a ∈ agents s'.departures, a.time < ⊤) (h3 : s'.time = (n.qs k).time)
    (h4 : s'.currentT = (n.qs k).currentT) (h5 : s'.numTotal = (n.qs k).numTotal) :
    NetInv N b (n.setQ k s') := by
  have hM := h.toMid.upd (m := n.setQ k s') hk hg (fun hs => by rw [h4]; exact h.clk k hk hs)
    (by rw [h3]; exact h.tau k hk) (fun y hy _ => h1 y hy)
    h2 rfl rfl rfl rfl (by rw [h5]; exact h.num k hk)
    (fun j hj => rfl)
  refine ⟨⟨hM.good, hM.num, fun j hj _ => hM.node j hj ?_, hM.ge, hM.clk, hM.tau, hM.probs, hM.pend, hM.noTop,
    fun hF y j _ => hM.dead hF y j ?_, hM.findep⟩, h.heap, ?_⟩
  · rintro (h' | h')
    · exact h'
    · exact h'.2 h3
  · rintro (h' | h')
    · exact h'
    · exact h'.2 h3
  · intro hi
    obtain ⟨f1, f2, f3⟩ := h.fresh hi
    refine ⟨f1, f2, fun j hj => ?_⟩
    by_cases hjk : j = k
    · subst hjk
      simp only [Net.setQ, Function.update_self, h4, h5]
      exact f3 j hj
    · simp only [Net.setQ, Function.update_of_ne hjk]
      exact f3 j hj

theorem NetInv.data {N : NetCfg T R} {b : Nat → Bool} {n : Net T R} (h : NetInv N b n) {k : Nat}
    (hk : k < N.nE) {s' : QS T} (hg : QGood (N.qc k) (b k) s') (h1 : s'.arrivals = (n.qs k).arrivals)
    (h2 : s'.departures = (n.qs k).departures) (h3 : s'.time = (n.qs k).time)
    (h4 : s'.currentT = (n.qs k).currentT) (h5 : s'.numTotal = (n.qs k).numTotal) :
    NetInv N b (n.setQ k s') :=
  h.change hk hg (fun y hy => by rw [pendT_congr h1 h2]; exact hy) (fun hF => by rw [h2]; exact h.findep hF k hk) h3 h4 h5

/-- `set_active` on a queue of a fresh network. -/
theorem activate_one {c : QCfg T} {b : Bool} {s : QS T} (hf : Forward c) (hk : Simple c ∨ c.kind = .null)
    (h : QGood c b s) :
    ∃ s', setActive c s = .ok s' ∧ QGood c b s' ∧ s'.currentT = s.currentT ∧
      (Simple c → s.currentT ≤ s'.time) ∧ (∀ y ∈ pendT s, y ∈ pendT s') ∧ s'.departures = s.departures ∧
      s'.numSystem = s.numSystem ∧ s'.queue = s.queue ∧ s'.log = s.log ∧ s'.lost = s.lost ∧
      s.numTotal ≤ s'.numTotal ∧ s'.numTotal ≤ s.numTotal + 1 := by
  have hb := h.base
  rcases h with ⟨hk, h⟩ | ⟨hk, h⟩
  · cases ha : s.active with
    | true =>
      refine ⟨s, by simp [setActive, ha], .inl ⟨hk, h⟩, rfl, fun _ => ?_, fun y hy => hy, rfl, rfl, rfl, rfl,
        rfl, le_rfl, by omega⟩
      rw [hb.time]; exact (h.clock hk hf (fun _ _ h => h)).nextTime_ge hb
    | false =>
      obtain ⟨arr, ext, ν, act, calls, h1, h2, h3, h4⟩ := setActive_spec c s hk.ne_null hb.okA hb.time ha
      have hr' := h.step .setActive trivial (show QOp.run c s .setActive = _ from h4)
      have hb' := hr'.base hk
      have hlen : ext.length ≤ 1 := by cases h1 <;> simp
      refine ⟨_, h4, .inl ⟨hk, hr'⟩, rfl, fun _ => ?_, ?_, rfl, rfl, rfl, rfl, rfl, by simp, by simp; omega⟩
      · have := (hr'.clock hk hf (fun _ _ h => h)).nextTime_ge hb'
        rw [← hb'.time] at this
        exact this
      · intro y hy
        rcases mem_pendT.mp hy with ⟨a, ha', rfl⟩ | ⟨a, ha', rfl⟩
        · exact mem_pendT.mpr (.inl ⟨a, h3.mem_iff.mpr (by simp [ha']), rfl⟩)
        · exact mem_pendT.mpr (.inr ⟨a, ha', rfl⟩)
  · refine ⟨if s.active then s else { s with active := true }, ?_, .inr ⟨hk, ?_⟩, ?_, ?_, ?_, ?_, ?_, ?_, ?_, ?_, ?_,
      ?_⟩
    · unfold setActive addArrival
      split <;> simp [hk]
    · split
      · exact h
      · exact h
    · split <;> rfl
    · intro h'; exact absurd hk h'.ne_null
    · intro y hy; split <;> exact hy
    all_goals split <;> simp

/-- More events ahead, so the next one is not later. -/
theorem QBase.time_le {s s' : QS T} (h : QBase s) (h' : QBase s') (hp : ∀ y ∈ pendT s, y ∈ pendT s') :
    s'.time ≤ s.time := by
  by_cases ht : s.time = ⊤
  · rw [ht]; exact le_top
  · exact h'.le_pend (hp _ (h.mem_pend (lt_top_iff_ne_top.mpr ht)))

/-- A queue has no event before its own clock. -/
theorem QGood.cur_le {c : QCfg T} {b : Bool} {s : QS T} (hf : Forward c) (h : QGood c b s) (hk : Simple c) :
    s.currentT ≤ s.time := by
  have hb := h.base
  rcases h with ⟨-, h⟩ | ⟨h, -⟩
  · rw [hb.time]; exact (h.clock hk hf (fun _ _ h => h)).nextTime_ge hb
  · exact absurd h hk.ne_null

/-- The loop in `initialize` keeps the clocks, and the times of the next events only fall. -/
theorem activate_le {N : NetCfg T R} (hN : N.Ok) {b : Nat → Bool} : ∀ (l : List Nat) (n : Net T R),
    (∀ k < N.nE, QGood (N.qc k) (b k) (n.qs k)) → (∀ e ∈ l, e < N.nE) →
    ∃ n', Net.activate N l n = .ok n' ∧ n'.t = n.t ∧ (∀ k < N.nE, QGood (N.qc k) (b k) (n'.qs k) ∧
      (n'.qs k).currentT = (n.qs k).currentT ∧ (n'.qs k).time ≤ (n.qs k).time) ∧
      (∀ k, k ∉ l → n'.qs k = n.qs k) ∧
      (∀ k ∈ l, l.Nodup → setActive (N.qc k) (n.qs k) = .ok (n'.qs k)) := by
  intro l
  induction l with
  | nil => intro n h _; exact ⟨n, rfl, rfl, fun k hk => ⟨h k hk, rfl, le_rfl⟩, fun _ _ => rfl, by simp⟩
  | cons e es ih =>
    intro n h hl
    have he : e < N.nE := hl e (by simp)
    obtain ⟨s', g1, g2, g3, -, g5, -⟩ := activate_one (hN.fwd e he) (hN.kinds e he) (h e he)
    have hle := (h e he).base.time_le g2.base g5
    obtain ⟨n', q1, q2, q3, q4, q5⟩ := ih ((n.setQ e s').setNum e s'.numTotal) (fun k hk => by
        by_cases hke : k = e
        · subst hke; simpa [Net.setNum, Net.setQ] using g2
        · simpa [Net.setNum, Net.setQ, hke] using h k hk) (fun k hk => hl k (by simp [hk]))
    refine ⟨n', by simp only [Net.activate, if_neg (not_le.mpr he), g1, q1], q2, fun k hk => ?_, ?_, ?_⟩
    rotate_left
    · intro k hk
      simp only [List.mem_cons, not_or] at hk
      rw [q4 k hk.2]
      simp [Net.setNum, Net.setQ, hk.1]
    · intro k hk hnd
      rw [List.nodup_cons] at hnd
      rcases List.mem_cons.mp hk with rfl | hk
      · rw [q4 k hnd.1]
        simpa [Net.setNum, Net.setQ] using g1
      · have hke : k ≠ e := fun h => hnd.1 (h ▸ hk)
        have := q5 k hk hnd.2
        simpa [Net.setNum, Net.setQ, hke] using this
    obtain ⟨a1, a2, a3⟩ := q3 k hk
    by_cases hke : k = e
    · subst hke
      simp only [Net.setNum, Net.setQ, Function.update_self] at a2 a3
      exact ⟨a1, a2.trans g3, a3.trans hle⟩
    · simp only [Net.setNum, Net.setQ, Function.update_of_ne hke] at a2 a3
      exact ⟨a1, a2, a3⟩

/-- The loop in `initialize`, if no queue gets an event before the clock of the network. -/
theorem activate_core {N : NetCfg T R} (hN : N.Ok) {b : Nat → Bool} : ∀ (l : List Nat) (n : Net T R),
    Core N b n → (∀ e ∈ l, e < N.nE) →
    (∀ n', Net.activate N l n = .ok n' → ∀ k < N.nE, n.t ≤ (n'.qs k).time) →
    ∃ n', Net.activate N l n = .ok n' ∧ Core N b n' ∧ n'.t = n.t ∧
      (∀ k, k ∉ l → n'.qs k = n.qs k ∧ n'.numAgents k = n.numAgents k) ∧
      (∀ k ∈ l, l.Nodup → setActive (N.qc k) (n.qs k) = .ok (n'.qs k)) ∧
      n' = { n with qs := n'.qs, numAgents := n'.numAgents } := by
  intro l
  induction l with
  | nil =>
    intro n h hl ht
    exact ⟨n, rfl, h, rfl, fun _ _ => ⟨rfl, rfl⟩, by simp, rfl⟩
  | cons e es ih =>
    intro n h hl ht
    have he : e < N.nE := hl e (by simp)
    obtain ⟨s', g1, g2, g3, g4, g5, g6, -⟩ := activate_one (hN.fwd e he) (hN.kinds e he) (h.good e he)
    have ht' : ∀ n', Net.activate N es ((n.setQ e s').setNum e s'.numTotal) = .ok n' →
        ∀ k < N.nE, n.t ≤ (n'.qs k).time := fun n' h' =>
      ht n' (by simp only [Net.activate, if_neg (not_le.mpr he), g1, h'])
    have hM := h.upd (m := { (n.setQ e s').setNum e s'.numTotal with heap := PQ.empty }) he g2
      (fun hs => by rw [g3]; exact h.clk e he hs) (by
        show n.t ≤ s'.time
        obtain ⟨m, b1, -, b3, -⟩ := activate_le hN es ((n.setQ e s').setNum e s'.numTotal) (b := b) (fun k hk => by
          by_cases hke : k = e
          · subst hke; simpa [Net.setNum, Net.setQ] using g2
          · simpa [Net.setNum, Net.setQ, hke] using h.good k hk) (fun k hk => hl k (by simp [hk]))
        have b4 := (b3 e he).2.2
        simp only [Net.setNum, Net.setQ, Function.update_self] at b4
        exact (ht' m b1 e he).trans b4) (fun y hy _ => g5 y hy)
      (fun hF => by rw [g6]; exact h.findep hF e he) rfl rfl rfl rfl (by simp [Net.setNum])
      (fun j hj => by simp [Net.setNum, hj]; rfl)
    obtain ⟨n', q1, q2, q3, q5, q6, q7⟩ := ih ((n.setQ e s').setNum e s'.numTotal)
      hM.core (fun k hk => hl k (by simp [hk])) ht'
    refine ⟨n', ?_, q2, q3, ?_, ?_, ?_⟩
    · simp only [Net.activate, if_neg (not_le.mpr he), g1, q1]
    · intro k hk
      simp only [List.mem_cons, not_or] at hk
      obtain ⟨a1, a2⟩ := q5 k hk.2
      rw [a1, a2]
      simp [Net.setNum, Net.setQ, hk.1]
    · intro k hk hnd
      rw [List.nodup_cons] at hnd
      rcases List.mem_cons.mp hk with rfl | hk
      · rw [(q5 k hnd.1).1]
        simpa [Net.setNum, Net.setQ] using g1
      · have hke : k ≠ e := fun h => hnd.1 (h ▸ hk)
        have := q6 k hk hnd.2
        simpa [Net.setNum, Net.setQ, hke] using this
    · rw [q7]; rfl

theorem sift_spec {N : NetCfg T R} : ∀ (l : List Nat), (∀ e ∈ l, e < N.nE) →
    Net.sift N l = .ok (l.filter fun e => decide ((N.qc e).edge.etype ≠ 0)) := by
  intro l
  induction l with
  | nil => intro _; rfl
  | cons e es ih =>
    intro h
    simp only [Net.sift, if_neg (not_le.mpr (h e (by simp))), ih (fun x hx => h x (by simp [hx]))]
    by_cases he : (N.qc e).edge.etype = 0
    · simp [he]
    · simp [he]

theorem sift_lt {N : NetCfg T R} : ∀ (l l' : List Nat), Net.sift N l = .ok l' → ∀ e ∈ l, e < N.nE := by
  intro l
  induction l with
  | nil => simp
  | cons e es ih =>
    intro l' h
    simp only [Net.sift] at h
    split at h
    · simp at h
    · rename_i he
      split at h
      · simp at h
      · rename_i l2 h2
        intro x hx
        rcases List.mem_cons.mp hx with rfl | hx
        · omega
        · exact ih _ h2 x hx

theorem pySlice_sub {α : Type*} (l : List α) (m : Int) : (Net.pySlice l m).Sublist l := by
  unfold Net.pySlice; split <;> exact List.take_sublist _ _

theorem truncate_sub (N : NetCfg T R) (l : List Nat) : (Net.truncate N l).Sublist l := by
  unfold Net.truncate
  split
  · exact List.Sublist.refl _
  · split
    · exact pySlice_sub _ _
    · exact List.Sublist.refl _

/-- On a new or cleared network nothing is scheduled before the clock. -/
theorem NetInv.fresh_tau {N : NetCfg T R} (hN : N.Ok) {b : Nat → Bool} {n : Net T R} (h : NetInv N b n)
    (hi : n.initialized = false) {l : List Nat} (hl : ∀ e ∈ l, e < N.nE) {n' : Net T R}
    (ha : Net.activate N l n = .ok n') : ∀ k < N.nE, n.t ≤ (n'.qs k).time := by
  obtain ⟨f1, f2, f3⟩ := h.fresh hi
  obtain ⟨n1, b1, b2, b3, -⟩ := activate_le hN l n h.good hl
  obtain rfl : n1 = n' := Except.ok.inj (b1.symm.trans ha)
  intro k hk
  obtain ⟨a1, a2, -⟩ := b3 k hk
  by_cases hs : Simple (N.qc k)
  · rw [f2, ← (f3 k hk).2 hs, ← a2]; exact a1.cur_le (hN.fwd k hk) hs
  · rcases a1 with ⟨h', -⟩ | ⟨-, h'⟩
    · exact absurd h' hs
    · rw [h'.1]; exact le_top

theorem NetInv.initialise {N : NetCfg T R} (hN : N.Ok) {b : Nat → Bool} {n n' : Net T R} (h : NetInv N b n)
    {pick : List Nat → Nat → List Nat} {a : Net.InitArg} (hi : (NetOp.initialise pick a).Allowed N n)
    (hr : n.initialise N pick a = .ok n') : NetInv N b n' ∧ n'.initialized = true := by
  have hr0 := hr
  unfold Net.initialise at hr
  split at hr
  · simp at hr
  · rename_i l hl
    split at hr
    · simp at hr
    · rename_i l1 hl1
      have hlt := sift_lt _ _ hl1
      rw [sift_spec l hlt, Except.ok.injEq] at hl1
      split at hr
      · simp at hr
      · have hlt' : ∀ e ∈ Net.truncate N l1, e < N.nE := by
          intro e he
          have h1 := (truncate_sub N l1).subset he
          rw [← hl1] at h1
          exact hlt e (List.mem_of_mem_filter h1)
        obtain ⟨n1, b1, -⟩ := activate_le hN (Net.truncate N l1) n h.good hlt'
        rw [b1] at hr
        simp only at hr
        split at hr
        · simp at hr
        rename_i h1 hp
        simp only [Except.ok.injEq] at hr
        subst hr
        obtain ⟨n2, q1, q2, -⟩ := activate_core hN (Net.truncate N l1) n h.core hlt' (by
          intro n2 ha
          rcases hi with hi | hi
          · exact h.fresh_tau hN hi hlt' ha
          · obtain rfl : n1 = n2 := Except.ok.inj (b1.symm.trans ha)
            intro k hk; exact hi _ hr0 k hk)
        obtain rfl : n1 = n2 := Except.ok.inj (b1.symm.trans q1)
        obtain ⟨h', g1, g2, g3, -⟩ := q2.rebuild hN
        obtain rfl : h' = h1 := Option.some.inj (g1.symm.trans hp)
        exact ⟨⟨⟨g2.good, g2.num, g2.node, g2.ge, g2.clk, g2.tau, g2.probs, g2.pend, g2.noTop, g2.dead,
          g2.findep⟩, g3, by simp⟩, rfl⟩

theorem QGood.collect {c : QCfg T} {b : Bool} {s : QS T} (h : QGood c b s) (x : Bool) :
    QGood c b { s with collectData := x } := by
  rcases h with ⟨hk, h⟩ | ⟨hk, h⟩
  · exact .inl ⟨hk, h.step (.collect x) trivial rfl⟩
  · exact .inr ⟨hk, h⟩

theorem QGood.clearData {c : QCfg T} {b : Bool} {s : QS T} (h : QGood c b s) :
    QGood c b { s with data := [] } := by
  rcases h with ⟨hk, h⟩ | ⟨hk, h⟩
  · exact .inl ⟨hk, h.step .clearData trivial rfl⟩
  · exact .inr ⟨hk, h⟩

theorem QGood.clear {c : QCfg T} {b : Bool} {s : QS T} (h : QGood c b s) :
    QGood c b (Verif.clear c s) ∧ (Verif.clear c s).numTotal = 0 ∧ (Verif.clear c s).time = ⊤ ∧
      (Simple c → (Verif.clear c s).currentT = 0) ∧ agents (Verif.clear c s).departures = [] := by
  rcases h with ⟨hk, h⟩ | ⟨hk, h⟩
  · have hr := h.step .clear trivial rfl
    refine ⟨.inl ⟨hk, hr⟩, ?_⟩
    rw [clear_simple c s hk]
    simp [agents]
  · have e : Verif.clear c s = s := by simp [Verif.clear, hk]
    rw [e]
    exact ⟨.inr ⟨hk, h⟩, h.2.1, h.1, fun h' => absurd hk h'.ne_null, by rw [h.2.2.2.2.2]; rfl⟩

theorem NetInv.clear {N : NetCfg T R} {b : Nat → Bool} {n : Net T R} (h : NetInv N b n) :
    NetInv N b (n.clear N) := by
  have hc : ∀ k < N.nE, _ := fun k hk => (h.good k hk).clear
  refine ⟨Core.ofEmpty ⟨fun k hk => (hc k hk).1, fun k hk => (hc k hk).2.1.symm, fun _ _ h => absurd trivial h,
    by simp [stored_empty], fun k hk hs => ((hc k hk).2.2.2.1 hs).le, fun k hk => ?_, h.probs,
    by simp [stored_empty], by simp [stored_empty], fun _ _ _ h => absurd trivial h, fun hF k hk a ha => ?_⟩ rfl
    (fun k hk => (hc k hk).2.2.1), .inr rfl, fun _ => ⟨rfl, rfl, fun k hk => ⟨(hc k hk).2.1, (hc k hk).2.2.2.1⟩⟩⟩
  · show (0 : T) ≤ (Verif.clear (N.qc k) (n.qs k)).time
    rw [(hc k hk).2.2.1]; exact le_top
  · have ha' : a ∈ agents (Verif.clear (N.qc k) (n.qs k)).departures := ha
    rw [(hc k hk).2.2.2.2] at ha'; simp at ha'

theorem NetInv.new {N : NetCfg T R} (hN : N.Ok) (b : Nat → Bool) (bas : Bool) (probs : Nat → List R)
    (hp : ∀ v, (probs v).length = (N.outEdges v).length) : NetInv N b (Net.init N b bas probs) := by
  refine ⟨Core.ofEmpty ⟨fun k hk => ?_, fun k hk => rfl, fun _ _ h => absurd trivial h,
    by simp [stored_empty], fun k hk hs => le_rfl, fun k hk => le_top, hp,
    by simp [stored_empty], by simp [stored_empty], fun _ _ _ h => absurd trivial h, fun hF k hk a ha => ?_⟩ rfl
    (fun k hk => rfl), .inr rfl, fun _ => ⟨rfl, rfl, fun k hk => ⟨rfl, fun _ => rfl⟩⟩⟩
  · rcases hN.kinds k hk with h | h
    · exact .inl ⟨h, .init⟩
    · exact .inr ⟨h, rfl, rfl, rfl, rfl, rfl, rfl⟩
  · simp [Net.init, QS.init, agents] at ha

theorem NetInv.copy {N : NetCfg T R} (hN : N.Ok) {b : Nat → Bool} {n : Net T R} (h : NetInv N b n) :
    ∃ h', n.copy N = some { n with heap := h' } ∧ NetInv N b { n with heap := h' } := by
  unfold Net.copy
  by_cases hi : n.initialized = true
  · obtain ⟨h', g1, g2, g3, -⟩ := h.core.rebuild hN
    rw [if_pos hi, g1]
    exact ⟨h', rfl, ⟨g2, g3, fun hf => absurd hf (by simp [hi])⟩⟩
  · rw [if_neg hi]
    obtain ⟨f1, f2, f3⟩ := h.fresh (by simpa using hi)
    refine ⟨PQ.empty, rfl, ⟨Core.ofEmpty (n := { n with heap := PQ.empty }) h.core rfl ?_, .inr rfl,
      fun _ => ⟨rfl, f2, f3⟩⟩⟩
    intro k hk
    by_contra h1
    have := ((h.node k hk (by simp)).1 (lt_top_iff_ne_top.mpr h1)).2
    rw [PQ.stored_nil f1] at this; simp at this

theorem NetInv.collect {N : NetCfg T R} {b : Nat → Bool} (x : Bool) : ∀ (ks : List Nat) (n : Net T R),
    NetInv N b n → (∀ k ∈ ks, k < N.nE) → NetInv N b (n.collect x ks) := by
  intro ks
  induction ks with
  | nil => intro n h _; exact h
  | cons k ks ih =>
    intro n h hk
    exact ih _ (h.data (hk k (by simp)) ((h.good k (hk k (by simp))).collect x) rfl rfl rfl rfl rfl)
      (fun j hj => hk j (by simp [hj]))

theorem NetInv.clearData {N : NetCfg T R} {b : Nat → Bool} : ∀ (ks : List Nat) (n : Net T R),
    NetInv N b n → (∀ k ∈ ks, k < N.nE) → NetInv N b (n.clearData ks) := by
  intro ks
  induction ks with
  | nil => intro n h _; exact h
  | cons k ks ih =>
    intro n h hk
    exact ih _ (h.data (hk k (by simp)) ((h.good k (hk k (by simp))).clearData) rfl rfl rfl rfl rfl)
      (fun j hj => hk j (by simp [hj]))

theorem QGood.setServers {c : QCfg T} {b : Bool} {s : QS T} (h : QGood c b s) (m : PyNum) :
    QGood c b (setNumServers c s m).1 := by
  rcases h with ⟨hk, h⟩ | ⟨hk, h⟩
  · exact .inl ⟨hk, h.step (.setServers m) trivial rfl⟩
  · refine .inr ⟨hk, ?_⟩
    simpa [setNumServers, hk] using h

theorem startServ_fin {c : QCfg T} {t : T} (h : ∀ i, c.serviceF i t < ⊤) (l : List (Agent T)) :
    ∀ n, ∀ a ∈ startServ c n t l, a.time < ⊤ := by
  induction l with
  | nil => simp [startServ]
  | cons a l ih =>
    intro n x hx
    rcases List.mem_cons.mp hx with rfl | hx
    · exact h n
    · exact ih _ x hx

theorem NetInv.setServers {N : NetCfg T R} (hN : N.Ok) {b : Nat → Bool} {n : Net T R} (h : NetInv N b n) {k : Nat}
    (hk : k < N.nE) {m : PyNum} (ht : (setNumServers (N.qc k) (n.qs k) m).1.time = (n.qs k).time) :
    NetInv N b (n.setQ k (setNumServers (N.qc k) (n.qs k) m).1) := by
  have hg := h.good k hk
  rcases hg with ⟨hs, hr⟩ | ⟨hs, hr⟩
  · have hspec := setNumServers_spec (N.qc k) (n.qs k) m hs (hr.base hs).okD
    have hg' := (h.good k hk).setServers m
    generalize (setNumServers (N.qc k) (n.qs k) m).1 = s' at *
    generalize (setNumServers (N.qc k) (n.qs k) m).2 = r at *
    cases hspec with
    | typ _ => exact h.data hk hg' rfl rfl rfl rfl rfl
    | val _ _ _ => exact h.data hk hg' rfl rfl rfl rfl rfl
    | ok new j deps h1 h2 h3 h4 h5 =>
      refine h.change hk hg' ?_ ?_ ht rfl rfl
      · intro y hy
        rcases mem_pendT.mp hy with h6 | ⟨a, ha, e⟩
        · exact mem_pendT.mpr (.inl h6)
        · exact mem_pendT.mpr (.inr ⟨a, h5.mem_iff.mpr (List.mem_append_right _ ha), e⟩)
      · intro hF a ha
        rcases List.mem_append.mp (h5.mem_iff.mp ha) with h6 | h6
        · refine startServ_fin (fun i => hF.svc k hk hs i _ ?_) _ _ a h6
          have hq : (n.qs k).queue ≠ [] := by
            intro hq; rw [hq] at h6; simp [startServ] at h6
          have hsys : 1 ≤ (n.qs k).numSystem := by
            rw [(hr.inv hs).numSystem]
            have := List.length_pos_iff.mpr hq
            omega
          obtain ⟨a', ha'⟩ := List.exists_mem_of_ne_nil _ (busy hF hk hs hr hsys)
          exact ((hr.clock hs (hN.fwd k hk) (fun _ _ h => h)).dep a' ha').trans_lt (h.findep hF k hk a' ha')
        · exact h.findep hF k hk a h6
  · have e : (setNumServers (N.qc k) (n.qs k) m).1 = n.qs k := by simp [setNumServers, hs]
    rw [e]
    exact h.data hk (h.good k hk) rfl rfl rfl rfl rfl

theorem NetInv.setInactive {N : NetCfg T R} {b : Nat → Bool} {n : Net T R} (h : NetInv N b n) {k : Nat}
    (hk : k < N.nE) : NetInv N b (n.setQ k (Verif.setInactive (n.qs k))) := by
  refine h.data hk ?_ rfl rfl rfl rfl rfl
  rcases h.good k hk with ⟨hs, hr⟩ | ⟨hs, hr⟩
  · exact .inl ⟨hs, hr.step .setInactive trivial rfl⟩
  · exact .inr ⟨hs, hr⟩

theorem simulate_one {N : NetCfg T R} {n : Net T R} :
    n.simulate N 1 = if n.initialized then n.step N else .error (.py .queueingToolError) := by
  unfold Net.simulate Net.steps Net.steps
  split
  · cases n.step N <;> rfl
  · rfl

/-- The invariant holds throughout every history. -/
theorem NetReach.inv {N : NetCfg T R} (hN : N.Ok) {b : Nat → Bool} {n : Net T R} (h : NetReach N b n) :
    NetInv N b n := by
  induction h with
  | new bas probs hp => exact NetInv.new hN b bas probs hp
  | step op h1 ha hr ih =>
    rename_i n n'
    cases op with
    | step =>
      rw [NetOp.run, simulate_one] at hr
      split at hr
      · rename_i hi
        rcases step_spec hN ih hi with ⟨n2, g1, -, g3⟩ | ⟨g1, -⟩
        · rw [g1] at hr; simp only [Except.ok.injEq] at hr; exact hr ▸ g3
        · rw [g1] at hr; simp at hr
      · simp at hr
    | initialise pick a => exact (ih.initialise hN ha hr).1
    | clear => simp only [NetOp.run, Except.ok.injEq] at hr; exact hr ▸ ih.clear
    | collect x ks => simp only [NetOp.run, Except.ok.injEq] at hr; exact hr ▸ NetInv.collect x ks n ih ha
    | clearData ks => simp only [NetOp.run, Except.ok.injEq] at hr; exact hr ▸ NetInv.clearData ks n ih ha
    | setProbs p =>
      simp only [NetOp.run, Except.ok.injEq] at hr
      subst hr
      exact ⟨⟨ih.good, ih.num, ih.node, ih.ge, ih.clk, ih.tau, ha, ih.pend, ih.noTop, ih.dead, ih.findep⟩,
        ih.heap, ih.fresh⟩
    | setBlocking bas =>
      simp only [NetOp.run, Except.ok.injEq] at hr
      subst hr
      exact ⟨⟨ih.good, ih.num, ih.node, ih.ge, ih.clk, ih.tau, ih.probs, ih.pend, ih.noTop, ih.dead, ih.findep⟩,
        ih.heap, ih.fresh⟩
    | copy =>
      obtain ⟨h', g1, g2⟩ := ih.copy hN
      simp only [NetOp.run, g1, Except.ok.injEq] at hr
      exact hr ▸ g2
    | setServers k m => simp only [NetOp.run, Except.ok.injEq] at hr; exact hr ▸ ih.setServers hN ha.1 ha.2
    | setInactive k => simp only [NetOp.run, Except.ok.injEq] at hr; exact hr ▸ ih.setInactive ha

end Verif
