import Verif.AnyQueue
import Verif.NetEvent

/-! # The invariant of a network with queues of every class (proof support)

The same as `Verif.NetInv`, `Verif.NetStep` and `Verif.NetEvent`, with ResourceQueues. -/

set_option linter.unusedSectionVars false
set_option linter.unusedSimpArgs false
set_option linter.unusedVariables false

namespace Verif

variable {T R : Type*} [LinearOrder T] [OrderTop T] [Zero T] [LinearOrder R] [Add R]

/-- State of a queue in a network: the result of a history of operations. -/
def QGoodA (c : QCfg T) (b : Bool) (s : QS T) : Prop :=
  (c.kind ≠ .null ∧ Reach c b NetOk s) ∨ (c.kind = .null ∧ NullQ s)

/-- What is assumed of a network with queues of every class: queue `k` sits at position `k` of `edge2queue`;
`arrival_f`, `service_f` and the jitter do not go back in time; the out-edges of the target of every queue that is
not a NullQueue exist and there is at least one. -/
structure NetCfg.OkA (N : NetCfg T R) : Prop where
  idx : ∀ k < N.nE, (N.qc k).edge.idx = k
  fwd : ∀ k < N.nE, Forward (N.qc k)
  out : ∀ k < N.nE, (N.qc k).kind ≠ .null → N.outEdges (N.qc k).edge.tgt ≠ []
  outLt : ∀ k < N.nE, (N.qc k).kind ≠ .null → ∀ e ∈ N.outEdges (N.qc k).edge.tgt, e < N.nE
  jit : ∀ i t, t ≤ N.jit i t

theorem NetCfg.Ok.okA {N : NetCfg T R} (h : N.Ok) : N.OkA :=
  ⟨h.idx, h.fwd, fun k hk hn => h.out k hk ((h.kinds k hk).resolve_right hn),
    fun k hk hn => h.outLt k hk ((h.kinds k hk).resolve_right hn), h.jit⟩

omit [LinearOrder R] [Add R] in
theorem NetCfg.OkA.ok {N : NetCfg T R} (h : N.OkA) (hk : ∀ k < N.nE, Simple (N.qc k) ∨ (N.qc k).kind = .null) :
    N.Ok :=
  ⟨h.idx, hk, h.fwd, fun k hk hs => h.out k hk hs.ne_null, fun k hk hs => h.outLt k hk hs.ne_null, h.jit⟩

theorem QGood.goodA {c : QCfg T} {b : Bool} {s : QS T} (h : QGood c b s) : QGoodA c b s :=
  h.imp_left fun h => ⟨h.1.ne_null, h.2⟩

/-- No queue is an out-edge of its own target. -/
def NetCfg.NoLoopA (N : NetCfg T R) : Prop :=
  ∀ k < N.nE, (N.qc k).kind ≠ .null → k ∉ N.outEdges (N.qc k).edge.tgt

/-- The invariant, except that the scheduler does not know the nodes in `D`. -/
structure MidA (N : NetCfg T R) (b : Nat → Bool) (n : Net T R) (D : Nat → Prop) : Prop where
  good : ∀ k < N.nE, QGoodA (N.qc k) (b k) (n.qs k)
  num : ∀ k < N.nE, n.numAgents k = (n.qs k).numTotal
  node : ∀ k < N.nE, ¬ D k → NodeOk n.heap (n.qs k).time n.t k
  ge : ∀ p ∈ n.heap.stored, n.t ≤ p.1
  clk : ∀ k < N.nE, (N.qc k).kind ≠ .null → (n.qs k).currentT ≤ n.t
  tau : ∀ k < N.nE, n.t ≤ (n.qs k).time
  probs : ∀ v, (n.probs v).length = (N.outEdges v).length
  pend : N.NoLoopA → ∀ y k, (y, k) ∈ n.heap.stored → n.t < y → y ∈ pendT (n.qs k)
  noTop : N.NoLoopA → ∀ y k, (y, k) ∈ n.heap.stored → y < ⊤
  dead : N.NoLoopA → ∀ y k, ¬ D k → (y, k) ∈ n.heap.stored → ¬ n.heap.Live (y, k) → (n.qs k).time < ⊤

/-- The invariant. -/
structure NetInvA (N : NetCfg T R) (b : Nat → Bool) (n : Net T R) : Prop extends
    MidA N b n (fun _ => False) where
  heap : n.heap.Inv N.nE ∨ n.heap.size = 0
  fresh : n.initialized = false → n.heap.size = 0 ∧ n.t = 0 ∧
    ∀ k < N.nE, (n.qs k).numTotal = 0 ∧ ((N.qc k).kind ≠ .null → (n.qs k).currentT = 0)

theorem QGoodA.base {c : QCfg T} {b : Bool} {s : QS T} (h : QGoodA c b s) : QBase s := by
  rcases h with ⟨hk, h⟩ | ⟨hk, h⟩
  · exact h.baseA hk
  · obtain ⟨h1, -, -, h4, -, h6⟩ := h
    refine ⟨by rw [h4]; exact .single, by rw [h6]; exact .single, ?_⟩
    rw [h1, nextTime, h4, h6]; simp [headTime, Slot.time]

theorem MidA.push {N : NetCfg T R} {b : Nat → Bool} {n : Net T R} {D : Nat → Prop} (hN : N.OkA)
    (h : MidA N b n D) (hI : n.heap.Inv N.nE) (i : Nat) {k : Nat} (hk : k < N.nE)
    (hfin : N.NoLoopA → (n.qs k).time < ⊤) :
    ∃ h', n.pushKey N i k = .ok { n with heap := h' } ∧ h'.Inv N.nE ∧
      MidA N b { n with heap := h' } (fun j => D j ∧ j ≠ k) ∧
      ∀ j ≠ k, ∀ y, ((y, j) ∈ h'.stored → (y, j) ∈ n.heap.stored) ∧ (h'.Live (y, j) ↔ n.heap.Live (y, j)) := by
  obtain ⟨h', g1, g2, g3, g4, g5, g6⟩ := push_node hI (N.garbage i) (n.qs k).time hk
  have hmem : ∀ y j, j ≠ k → (y, j) ∈ h'.stored → (y, j) ∈ n.heap.stored := by
    intro y j hj hy
    rcases List.mem_cons.mp (g3.mem_iff.mp hy) with hy | hy
    · simp only [Prod.mk.injEq] at hy; exact absurd hy.2 hj
    · exact hy
  have hmem' : ∀ p, p ∈ n.heap.stored → p ∈ h'.stored := fun p hp => g3.mem_iff.mpr (by simp [hp])
  refine ⟨h', by simp only [Net.pushKey, hN.idx k hk, g1], g2, ?_, ?_⟩
  · constructor
    · exact h.good
    · exact h.num
    · intro j hj hD
      by_cases hjk : j = k
      · subst hjk
        exact ⟨fun _ => ⟨g4, g3.mem_iff.mpr (by simp)⟩, fun y _ hy => .inl (g5 y hy)⟩
      · have := h.node j hj (fun hd => hD ⟨hd, hjk⟩)
        exact ⟨fun ht => ⟨(g6 _ _ hjk).mpr (this.1 ht).1, hmem' _ (this.1 ht).2⟩,
          fun y hy hl => this.2 y (hmem _ _ hjk hy) ((g6 _ _ hjk).mp hl)⟩
    · intro p hp
      rcases List.mem_cons.mp (g3.mem_iff.mp hp) with rfl | hp
      · exact h.tau k hk
      · exact h.ge p hp
    · exact h.clk
    · exact h.tau
    · exact h.probs
    · intro hF y j hy hlt
      by_cases hjk : j = k
      · subst hjk
        rcases List.mem_cons.mp (g3.mem_iff.mp hy) with hy | hy
        · simp only [Prod.mk.injEq] at hy
          rw [hy.1]
          exact (h.good j hk).base.mem_pend (hfin hF)
        · exact h.pend hF y j hy hlt
      · exact h.pend hF y j (hmem _ _ hjk hy) hlt
    · intro hF y j hy
      by_cases hjk : j = k
      · subst hjk
        rcases List.mem_cons.mp (g3.mem_iff.mp hy) with hy | hy
        · simp only [Prod.mk.injEq] at hy
          rw [hy.1]
          exact hfin hF
        · exact h.noTop hF y j hy
      · exact h.noTop hF y j (hmem _ _ hjk hy)
    · intro hF y j hD hy hl
      by_cases hjk : j = k
      · subst hjk; exact hfin hF
      · exact h.dead hF y j (fun hd => hD ⟨hd, hjk⟩) (hmem _ _ hjk hy) (fun hl' => hl ((g6 _ _ hjk).mpr hl'))
  · intro j hj y
    exact ⟨hmem _ _ hj, g6 _ _ hj⟩

/-- A node with nothing scheduled need not be pushed. -/
theorem MidA.drop0 {N : NetCfg T R} {b : Nat → Bool} {n : Net T R} {D : Nat → Prop}
    (h : MidA N b n D) {k : Nat} (ht : (n.qs k).time = ⊤)
    (hl : ∀ y, (y, k) ∈ n.heap.stored → n.heap.Live (y, k) → y = n.t)
    (hd : N.NoLoopA → ∀ y, (y, k) ∈ n.heap.stored → n.heap.Live (y, k)) :
    MidA N b n (fun j => D j ∧ j ≠ k) := by
  constructor
  · exact h.good
  · exact h.num
  · intro j hj hD
    by_cases hjk : j = k
    · subst hjk
      refine ⟨fun h' => absurd h' (by rw [ht]; exact lt_irrefl _), fun y hy hl' => .inr ⟨ht, ?_⟩⟩
      rw [hl y hy hl']
    · exact h.node j hj (fun hd => hD ⟨hd, hjk⟩)
  · exact h.ge
  · exact h.clk
  · exact h.tau
  · exact h.probs
  · exact h.pend
  · exact h.noTop
  · intro hF y j hD hy hl'
    by_cases hjk : j = k
    · subst hjk; exact absurd (hd hF y hy) hl'
    · exact h.dead hF y j (fun hd => hD ⟨hd, hjk⟩) hy hl'

theorem MidA.mono {N : NetCfg T R} {b : Nat → Bool} {n : Net T R} {D D' : Nat → Prop}
    (h : MidA N b n D) (hD : ∀ k, k < N.nE → D k → D' k) (hlt : ∀ p ∈ n.heap.stored, p.2 < N.nE) :
    MidA N b n D' :=
  ⟨h.good, h.num, fun k hk hd => h.node k hk (fun h' => hd (hD k hk h')), h.ge, h.clk, h.tau, h.probs, h.pend,
    h.noTop, fun hF y k hd hy hl => h.dead hF y k (fun h' => hd (hD k (hlt _ hy) h')) hy hl⟩

theorem MidA.drop {N : NetCfg T R} {b : Nat → Bool} {n : Net T R} {D : Nat → Prop}
    (h : MidA N b n D) {k : Nat} (hk : k < N.nE) (ht : (n.qs k).time = ⊤)
    (hl : ∀ y, (y, k) ∈ n.heap.stored → n.heap.Live (y, k) → y = n.t)
    (hd : N.NoLoopA → ∀ y, (y, k) ∈ n.heap.stored → ¬ n.heap.Live (y, k) → n.t < y) :
    MidA N b n (fun j => D j ∧ j ≠ k) := by
  refine h.drop0 ht hl fun hF y hy => ?_
  by_contra hl'
  have h1 := (h.good k hk).base.le_pend (h.pend hF y k hy (hd hF y hy hl'))
  rw [ht, top_le_iff] at h1
  have := h.noTop hF y k hy
  rw [h1] at this
  exact lt_irrefl _ this

/-- The pushes after a departure event. -/
theorem MidA.pushBoth {N : NetCfg T R} {b : Nat → Bool} {n : Net T R} (hN : N.OkA) {k e2 : Nat} {old2 : T}
    (h : MidA N b n (fun j => j = k ∨ (j = e2 ∧ (n.qs e2).time ≠ old2))) (hI : n.heap.Inv N.nE)
    (hk : k < N.nE) (he : e2 < N.nE)
    (hl : ∀ y, (y, k) ∈ n.heap.stored → n.heap.Live (y, k) → y = n.t)
    (hd : N.NoLoopA → ∀ y, (y, k) ∈ n.heap.stored → ¬ n.heap.Live (y, k) → n.t < y)
    (hne : N.NoLoopA → (n.qs e2).time ≠ old2 → (n.qs e2).time < ⊤) :
    ∃ h', n.pushBoth N k e2 old2 = .ok { n with heap := h' } ∧ h'.Inv N.nE ∧
      MidA N b { n with heap := h' } (fun _ => False) := by
  unfold Net.pushBoth
  by_cases h2 : (n.qs e2).time ≠ old2
  · rw [if_pos h2]
    obtain ⟨h1, g1, g2, g3, g4⟩ := h.push hN hI (2 * n.numEvents) he (fun hF => hne hF h2)
    rw [g1]
    simp only
    by_cases hke : k = e2
    · subst hke
      rw [if_neg (by simp)]
      exact ⟨h1, rfl, g2, g3.mono (by rintro j - ⟨e | e, h'⟩ <;> simp_all) g2.nodes⟩
    · by_cases ht : (n.qs k).time < ⊤
      · rw [if_pos ⟨ht, by rw [hN.idx k hk, hN.idx e2 he]; simp [hke]⟩]
        obtain ⟨h3, k1, k2, k3, -⟩ := g3.push hN g2 (2 * n.numEvents + 1) hk (fun _ => ht)
        exact ⟨h3, k1, k2, k3.mono (by rintro j - ⟨⟨e | e, h'⟩, h''⟩ <;> simp_all) k2.nodes⟩
      · rw [if_neg (fun h' => ht h'.1)]
        refine ⟨h1, rfl, g2, ?_⟩
        refine (g3.drop hk (not_lt_top_iff.mp ht) ?_ ?_).mono
          (by rintro j - ⟨⟨e | e, h'⟩, h''⟩ <;> simp_all) g2.nodes
        · intro y hy hl'
          exact hl y ((g4 k hke y).1 hy) ((g4 k hke y).2.mp hl')
        · intro hF y hy hl'
          exact hd hF y ((g4 k hke y).1 hy) (fun h' => hl' ((g4 k hke y).2.mpr h'))
  · rw [if_neg h2]
    by_cases ht : (n.qs k).time < ⊤
    · rw [if_pos ht]
      obtain ⟨h1, g1, g2, g3, g4⟩ := h.push hN hI (2 * n.numEvents) hk (fun hF => ht)
      exact ⟨h1, g1, g2, g3.mono (by rintro j - ⟨e | e, h'⟩ <;> simp_all) g2.nodes⟩
    · rw [if_neg ht]
      exact ⟨n.heap, rfl, hI, (h.drop hk (not_lt_top_iff.mp ht) hl hd).mono
        (by rintro j - ⟨e | e, h'⟩ <;> simp_all) hI.nodes⟩

/-- Replacing a queue. -/
theorem MidA.upd {N : NetCfg T R} {b : Nat → Bool} {n m : Net T R} {D : Nat → Prop} (h : MidA N b n D)
    {k : Nat} (hk : k < N.nE) {s' : QS T} (hg : QGoodA (N.qc k) (b k) s')
    (hc : (N.qc k).kind ≠ .null → s'.currentT ≤ n.t) (ht : n.t ≤ s'.time)
    (hp : ∀ y ∈ pendT (n.qs k), n.t < y → y ∈ pendT s')
    (hq : m.qs = Function.update n.qs k s') (hh : m.heap = n.heap) (hmt : m.t = n.t)
    (hpr : m.probs = n.probs) (hnk : m.numAgents k = s'.numTotal)
    (hnj : ∀ j ≠ k, m.numAgents j = n.numAgents j) :
    MidA N b m (fun j => D j ∨ (j = k ∧ s'.time ≠ (n.qs k).time)) := by
  have hqk : m.qs k = s' := by rw [hq]; simp
  have hqj : ∀ j, j ≠ k → m.qs j = n.qs j := by intro j hj; rw [hq]; simp [hj]
  constructor
  · intro j hj
    by_cases hjk : j = k
    · subst hjk; rw [hqk]; exact hg
    · rw [hqj j hjk]; exact h.good j hj
  · intro j hj
    by_cases hjk : j = k
    · subst hjk; rw [hqk]; exact hnk
    · rw [hqj j hjk, hnj j hjk]; exact h.num j hj
  · intro j hj hD
    rw [hh, hmt]
    by_cases hjk : j = k
    · subst hjk
      have h1 : s'.time = (n.qs j).time := by
        by_contra h1; exact hD (.inr ⟨rfl, h1⟩)
      rw [hqk, h1]
      exact h.node j hj (fun h' => hD (.inl h'))
    · rw [hqj j hjk]; exact h.node j hj (fun h' => hD (.inl h'))
  · rw [hh, hmt]; exact h.ge
  · intro j hj hs
    rw [hmt]
    by_cases hjk : j = k
    · subst hjk; rw [hqk]; exact hc hs
    · rw [hqj j hjk]; exact h.clk j hj hs
  · intro j hj
    rw [hmt]
    by_cases hjk : j = k
    · subst hjk; rw [hqk]; exact ht
    · rw [hqj j hjk]; exact h.tau j hj
  · rw [hpr]; exact h.probs
  · intro hF y j hy hlt
    rw [hh] at hy
    rw [hmt] at hlt
    by_cases hjk : j = k
    · subst hjk; rw [hqk]; exact hp y (h.pend hF y j hy hlt) hlt
    · rw [hqj j hjk]; exact h.pend hF y j hy hlt
  · rw [hh]; exact h.noTop
  · intro hF y j hD hy hl
    rw [hh] at hy hl
    by_cases hjk : j = k
    · subst hjk
      have h1 : s'.time = (n.qs j).time := by
        by_contra h1; exact hD (.inr ⟨rfl, h1⟩)
      rw [hqk, h1]
      exact h.dead hF y j (fun h' => hD (.inl h')) hy hl
    · rw [hqj j hjk]; exact h.dead hF y j (fun h' => hD (.inl h')) hy hl

/-- What is known after popping `(x, k)`. -/
structure PoppedA (N : NetCfg T R) (b : Nat → Bool) (n : Net T R) (h : PQ T) (x : T) (k : Nat) : Prop where
  lt : k < N.nE
  inv : h.Inv N.nE
  mid : MidA N b { n with heap := h, t := x, numEvents := n.numEvents + 1 } (fun j => j = k)
  left : ∀ y, (y, k) ∈ h.stored → h.Live (y, k) → y = x
  leftDead : N.NoLoopA → ∀ y, (y, k) ∈ h.stored → ¬ h.Live (y, k) → x < y
  now : n.t ≤ x
  min : ∀ j < N.nE, x ≤ (n.qs j).time
  cases : x = (n.qs k).time ∨ ((n.qs k).time = ⊤ ∧ x = n.t)
  fin : N.NoLoopA → x < ⊤
  old : N.NoLoopA → ∀ y, (y, k) ∈ h.stored → x < y → y ∈ pendT (n.qs k)

theorem poppedA {N : NetCfg T R} {b : Nat → Bool} {n : Net T R} (h : NetInvA N b n) (hs : n.heap.size ≠ 0) :
    ∃ h' res, n.heap.pop = some (h', res) ∧ (res = none → ¬ N.NoLoopA) ∧
      ∀ x k, res = some (x, k) → PoppedA N b n h' x k := by
  have hI : n.heap.Inv N.nE := h.heap.resolve_right hs
  obtain ⟨h', res, g1, g2, g3, g4⟩ := PQ.pop_spec hI (by omega)
  have hlive : ∀ p, h'.Live p ↔ n.heap.Live p := by intro p; unfold PQ.Live; rw [g3]
  refine ⟨h', res, g1, ?_, ?_⟩
  · rintro rfl hF
    obtain ⟨e1, e2⟩ := g4
    have hne : n.heap.stored ≠ [] := by
      intro he
      have := PQ.stored_length hI
      rw [he] at this; simp at this; omega
    obtain ⟨p, hp⟩ := List.exists_mem_of_ne_nil _ hne
    have h1 := h.dead hF p.1 p.2 (by simp) hp (e2 _ hp)
    have h2 := (h.node p.2 (hI.nodes p hp) (by simp)).1 h1
    exact e2 _ h2.2 h2.1
  · rintro x k rfl
    obtain ⟨e1, stale, e2, e3, e4⟩ := g4
    have hmem : (x, k) ∈ n.heap.stored := e3.mem_iff.mpr (by simp)
    have hsub : ∀ p, p ∈ h'.stored → p ∈ n.heap.stored := fun p hp => e3.mem_iff.mpr (by simp [hp])
    have hk : k < N.nE := hI.nodes _ hmem
    have hnow := h.ge _ hmem
    simp only at hnow
    have hkeep : ∀ p, p ∈ n.heap.stored → n.heap.Live p → p = (x, k) ∨ p ∈ h'.stored := by
      intro p hp hl
      rcases List.mem_append.mp (e3.mem_iff.mp hp) with hp | hp
      · exact absurd hl (e2 p hp).1
      · simpa using hp
    have hmin : ∀ j < N.nE, x ≤ (n.qs j).time := by
      intro j hj
      by_cases ht : (n.qs j).time < ⊤
      · obtain ⟨a1, a2⟩ := (h.node j hj (by simp)).1 ht
        rcases hkeep _ a2 a1 with he | he
        · simp only [Prod.mk.injEq] at he; rw [he.1]
        · exact e4 _ he
      · rw [not_lt_top_iff.mp ht]; exact le_top
    have hleft : ∀ y, (y, k) ∈ h'.stored → h'.Live (y, k) → y = x := by
      intro y _ hl
      rw [hlive] at hl
      unfold PQ.Live at hl e1
      rw [e1] at hl
      simpa using hl.symm
    refine ⟨hk, g2, ?_, hleft, ?_, hnow, hmin, ?_, ?_, ?_⟩
    · constructor
      · exact h.good
      · exact h.num
      · intro j hj hjk
        have := h.node j hj (by simp)
        refine ⟨fun ht => ?_, fun y hy hl => ?_⟩
        · refine ⟨(hlive _).mpr (this.1 ht).1, ?_⟩
          rcases hkeep _ (this.1 ht).2 (this.1 ht).1 with he | he
          · simp only [Prod.mk.injEq] at he; exact absurd he.2 hjk
          · exact he
        · rcases this.2 y (hsub _ hy) ((hlive _).mp hl) with he | he
          · exact .inl he
          · exact .inr ⟨he.1, he.2.trans hnow⟩
      · exact e4
      · intro j hj hs'; exact (h.clk j hj hs').trans hnow
      · exact hmin
      · exact h.probs
      · intro hF y j hy hlt; exact h.pend hF y j (hsub _ hy) (hnow.trans_lt hlt)
      · intro hF y j hy; exact h.noTop hF y j (hsub _ hy)
      · intro hF y j hjk hy hl; exact h.dead hF y j (by simp) (hsub _ hy) (fun hl' => hl ((hlive _).mpr hl'))
    · intro hF y hy hl
      rcases lt_or_eq_of_le (e4 _ hy) with hlt | heq
      · exact hlt
      · simp only at heq
        subst heq
        exact absurd ((hlive _).mpr e1) hl
    · rcases (h.node k hk (by simp)).2 x hmem e1 with he | he
      · exact .inl he
      · exact .inr ⟨he.1, le_antisymm he.2 hnow⟩
    · intro hF; exact h.noTop hF x k hmem
    · intro hF y hy hlt; exact h.pend hF y k (hsub _ hy) (hnow.trans_lt hlt)

/-- How queue `e2`, in state `q2`, receives agent `a` and performs an event. -/
inductive RecvOutA (c : QCfg T) (off : QS T → Bool) (q2 s2 : QS T) (a : Agent T) : Prop
  | queue : c.kind ≠ .null → RecvEffA c q2 s2 a off → RecvOutA c off q2 s2 a
  | null (m : QS T) : c.kind = .null → addArrivalAgent c q2 a = .ok m → NullQ s2 →
      m.numTotal = q2.numTotal → s2 = (if off m then setInactive m else m) → RecvOutA c off q2 s2 a

/-- What one call of `_simulate_next_event` does. -/
inductive StepOutA (N : NetCfg T R) (n n' : Net T R) : Prop
  | empty : n.heap.size = 0 → n' = { n with t := ⊤ } → StepOutA N n n'
  | idle (k : Nat) (x : T) (h : PQ T) : k < N.nE → n.heap.size ≠ 0 → (n.qs k).time = ⊤ →
      (x = n.t ∨ x = ⊤) → (∀ j < N.nE, x ≤ (n.qs j).time) →
      n.heap.pop = some (h, some (x, k)) →
      n' = { n with heap := h, t := x, numEvents := n.numEvents + 1 } → StepOutA N n n'
  | arrive (k : Nat) (s' : QS T) : k < N.nE → Next n k → (N.qc k).kind ≠ .null → (n.qs k).time < ⊤ →
      (∀ j < N.nE, (n.qs k).time ≤ (n.qs j).time) → nextEventDescription (N.qc k) (n.qs k) = 1 →
      ArrEffA (N.qc k) (if (n.qs k).active && n.maxed N then setInactive (n.qs k) else n.qs k) s' →
      n'.qs = Function.update n.qs k s' →
      n'.numAgents = Function.update n.numAgents k s'.numTotal →
      n'.t = (n.qs k).time → n'.unifCalls = n.unifCalls → n'.jitCalls = n.jitCalls →
      StepSame n n' → StepOutA N n n'
  | block (k e2 : Nat) (a : Agent T) (s1 : QS T) (d : Nat) : k < N.nE → Next n k → e2 < N.nE →
      k ≠ e2 → (N.qc k).kind ≠ .null →
      (n.qs k).time < ⊤ → (∀ j < N.nE, (n.qs k).time ≤ (n.qs j).time) →
      nextEventDescription (N.qc k) (n.qs k) = 2 → n.destination N k a = .ok (e2, d) →
      (N.qc e2).kind = .loss ∨ (N.qc e2).kind = .resource → atCapacity (N.qc e2) (n.qs e2) = true →
      DelayEff (N.qc k) (n.qs k) s1
        (if n.bas then some (N.jit n.jitCalls (headTime (n.qs e2).departures)) else none) a →
      n'.qs = Function.update (Function.update n.qs e2
        { n.qs e2 with numBlocked := (n.qs e2).numBlocked + 1 }) k s1 →
      n'.numAgents = n.numAgents → n'.t = (n.qs k).time → n'.unifCalls = n.unifCalls + d →
      n'.jitCalls = (if n.bas then n.jitCalls + 1 else n.jitCalls) → StepSame n n' → StepOutA N n n'
  | move (k e2 : Nat) (a a' : Agent T) (s1 s2 : QS T) (d : Nat) : k < N.nE → Next n k → e2 < N.nE →
      (N.qc k).kind ≠ .null →
      (n.qs k).time < ⊤ → (∀ j < N.nE, (n.qs k).time ≤ (n.qs j).time) →
      nextEventDescription (N.qc k) (n.qs k) = 2 → n.destination N k a = .ok (e2, d) →
      (atCapacity (N.qc e2) (n.qs e2) = true → e2 = k) →
      DepEffA (N.qc k) (n.qs k) s1 a a' →
      RecvOutA (N.qc e2) (stopAt N n k e2 s1.numTotal) (Function.update n.qs k s1 e2) s2 a' →
      n'.qs = Function.update (Function.update n.qs k s1) e2 s2 →
      n'.numAgents = Function.update (Function.update n.numAgents k s1.numTotal) e2 s2.numTotal →
      n'.t = (n.qs k).time → n'.unifCalls = n.unifCalls + d → n'.jitCalls = n.jitCalls →
      StepSame n n' → StepOutA N n n'

theorem desc_casesA {c : QCfg T} {b : Bool} {s : QS T} (h : QGoodA c b s) :
    (nextEventDescription c s = 0 ∧ s.time = ⊤) ∨
    (nextEventDescription c s = 1 ∧ c.kind ≠ .null ∧ Reach c b NetOk s ∧ s.time < ⊤ ∧
      s.time = headTime s.arrivals ∧ headTime s.arrivals ≤ headTime s.departures) ∨
    (nextEventDescription c s = 2 ∧ c.kind ≠ .null ∧ Reach c b NetOk s ∧ s.time < ⊤ ∧
      s.time = headTime s.departures ∧ headTime s.departures < headTime s.arrivals) := by
  have hb := h.base
  rcases h with ⟨hk, h⟩ | ⟨hk, h⟩
  · unfold nextEventDescription
    rw [if_neg hk]
    by_cases h1 : headTime s.departures < headTime s.arrivals
    · right; right
      have ht : s.time = headTime s.departures := by rw [hb.time, nextTime, min_eq_right h1.le]
      exact ⟨by rw [if_pos h1], hk, h, by rw [ht]; exact h1.trans_le le_top, ht, h1⟩
    · rw [if_neg h1]
      have h1' := not_lt.mp h1
      have ht : s.time = headTime s.arrivals := by rw [hb.time, nextTime, min_eq_left h1']
      by_cases h2 : headTime s.arrivals < ⊤
      · right; left
        exact ⟨by rw [if_pos h2], hk, h, by rw [ht]; exact h2, ht, h1'⟩
      · left
        exact ⟨by rw [if_neg h2], by rw [ht]; exact not_lt_top_iff.mp h2⟩
  · left
    exact ⟨by simp [nextEventDescription, hk], h.1⟩

/-- A destination exists. -/
theorem destination_okA {N : NetCfg T R} (hN : N.OkA) {n : Net T R}
    (hp : ∀ v, (n.probs v).length = (N.outEdges v).length) {k : Nat} (hk : k < N.nE)
    (hs : (N.qc k).kind ≠ .null) (a : Agent T) :
    ∃ e d, n.destination N k a = .ok (e, d) ∧ e ∈ N.outEdges (N.qc k).edge.tgt := by
  have hout := hN.out k hk hs
  unfold Net.destination
  have plain : ∃ e d, (match agentDest (N.outEdges (N.qc k).edge.tgt) (n.probs (N.qc k).edge.tgt)
        (N.unif n.unifCalls) with
      | .error e => .error e
      | .ok e => .ok (e, if (N.outEdges (N.qc k).edge.tgt).length ≤ 1 then 0 else 1) :
        Except DestErr (Nat × Nat)) = .ok (e, d) ∧ e ∈ N.outEdges (N.qc k).edge.tgt := by
    obtain ⟨e, h1, h2⟩ := RoutingSpec.C32_destination_is_out_edge _ _ (N.unif n.unifCalls) hout
      (hp (N.qc k).edge.tgt)
    exact ⟨e, _, by rw [h2], h1⟩
  cases hkind : a.kind with
  | greedy =>
    obtain ⟨e, h1, h2⟩ := RoutingSpec.C32_greedy_destination_is_out_edge _
      (fun d => numberQueued (N.qc d) (n.qs d)) hout
    exact ⟨e, 0, by simp only [h2], h1⟩
  | plain => exact plain
  | resource _ _ => exact plain

theorem NetInvA.initialized {N : NetCfg T R} {b : Nat → Bool} {n : Net T R} (h : NetInvA N b n)
    (hs : n.heap.size ≠ 0) : n.initialized = true := by
  cases hi : n.initialized with
  | true => rfl
  | false => exact absurd (h.fresh hi).1 hs

theorem NetInvA.mk' {N : NetCfg T R} {b : Nat → Bool} {n : Net T R} (h : MidA N b n (fun _ => False))
    (hI : n.heap.Inv N.nE) (hi : n.initialized = true) : NetInvA N b n :=
  ⟨h, .inl hI, fun h' => by rw [hi] at h'; exact absurd h' (by simp)⟩

theorem arrival_stepA {N : NetCfg T R} {b : Nat → Bool} {n : Net T R} (hN : N.OkA) (hi : NetInvA N b n)
    {h : PQ T} {x : T} {k : Nat} (hs : Next n k) (P : PoppedA N b n h x k)
    (hx : x = (n.qs k).time) (hk : (N.qc k).kind ≠ .null) (hr : Reach (N.qc k) (b k) NetOk (n.qs k))
    (hd : nextEventDescription (N.qc k) (n.qs k) = 1) (hfin : (n.qs k).time < ⊤)
    (ht : (n.qs k).time = headTime (n.qs k).arrivals)
    (hle : headTime (n.qs k).arrivals ≤ headTime (n.qs k).departures) :
    ∃ n', ({ n with heap := h, t := x, numEvents := n.numEvents + 1 } : Net T R).arrival N k = .ok n' ∧ StepOutA N n n' ∧ NetInvA N b n' := by
  obtain ⟨s0, hs0⟩ : ∃ s0, s0 = if (n.qs k).active && n.maxed N then setInactive (n.qs k) else n.qs k :=
    ⟨_, rfl⟩
  have hr0 : Reach (N.qc k) (b k) NetOk s0 := by rw [hs0]; exact maybeInactive _ hr
  obtain ⟨m1, m2, m3, m4, m5, m6⟩ := maybeInactive_same ((n.qs k).active && n.maxed N) (n.qs k)
  rw [← hs0] at m1 m2 m3 m4 m5 m6
  obtain ⟨s', heff, hr'⟩ := arr_effA hk (hN.fwd k P.lt) hr0 (by rw [m1, m2]; exact hle)
    (by rw [m1, ← ht]; exact hfin)
  have hM := P.mid.upd (m := { n with
      heap := h, t := x, numEvents := n.numEvents + 1,
      qs := Function.update n.qs k s',
      numAgents := Function.update n.numAgents k s'.numTotal }) P.lt (.inl ⟨hk, hr'⟩)
    (fun _ => by rw [heff.cur, m3, ← hx]) (by show x ≤ _; rw [hx, ← m3]; exact heff.ge)
    (fun y hy hlt => heff.pend y (by rw [pendT_congr m1 m2]; exact hy) (by rw [m3, ← hx]; exact hlt))
    rfl rfl rfl rfl (by simp) (fun j hj => by simp [hj])
  replace hM := hM.mono (D' := fun j => j = k) (by rintro j - (h1 | h1); exacts [h1, h1.1]) P.inv.nodes
  have harr : ({ n with heap := h, t := x, numEvents := n.numEvents + 1 } : Net T R).arrival N k = (if s'.time < ⊤ then
      ({ n with
        heap := h, t := x, numEvents := n.numEvents + 1,
        qs := Function.update n.qs k s',
        numAgents := Function.update n.numAgents k s'.numTotal } : Net T R).pushKey N
          (2 * (n.numEvents + 1)) k
      else .ok { n with
        heap := h, t := x, numEvents := n.numEvents + 1,
        qs := Function.update n.qs k s',
        numAgents := Function.update n.numAgents k s'.numTotal }) := by
    have hev : nextEvent (N.qc k) (if (({ n with heap := h, t := x, numEvents := n.numEvents + 1 } : Net T R).qs k).active && ({ n with heap := h, t := x, numEvents := n.numEvents + 1 } : Net T R).maxed N then
        setInactive (({ n with heap := h, t := x, numEvents := n.numEvents + 1 } : Net T R).qs k) else ({ n with heap := h, t := x, numEvents := n.numEvents + 1 } : Net T R).qs k) = .ok (s', none) := by
      have := heff.ev; rw [hs0] at this; exact this
    unfold Net.arrival
    simp only [hev, Net.setQ, Net.setNum, hN.idx k P.lt, Function.update_self]
  have hout : ∀ h', StepOutA N n { n with
      heap := h', t := x, numEvents := n.numEvents + 1,
      qs := Function.update n.qs k s',
      numAgents := Function.update n.numAgents k s'.numTotal } := fun h' =>
    .arrive k s' P.lt hs hk hfin (fun j hj => hx ▸ P.min j hj) hd (hs0 ▸ heff) rfl rfl hx rfl rfl
      ⟨rfl, rfl, rfl, rfl⟩
  by_cases hlt : s'.time < ⊤
  · rw [harr, if_pos hlt]
    obtain ⟨h', g1, g2, g3, -⟩ := hM.push hN P.inv (2 * (n.numEvents + 1)) P.lt
      (fun _ => by simpa using hlt)
    refine ⟨_, g1, hout h', NetInvA.mk' (g3.mono ?_ g2.nodes) g2 (hi.initialized hs.1)⟩
    rintro j - ⟨h1, h2⟩; exact h2 h1
  · rw [harr, if_neg hlt]
    have hlt' := not_lt_top_iff.mp hlt
    refine ⟨_, rfl, hout h, NetInvA.mk' ((hM.drop P.lt (by simpa using hlt') P.left P.leftDead).mono ?_
      P.inv.nodes) P.inv (hi.initialized hs.1)⟩
    rintro j - ⟨h1, h2⟩; exact h2 h1

theorem block_stepA {N : NetCfg T R} {b : Nat → Bool} {n : Net T R} (hN : N.OkA) (hi : NetInvA N b n)
    {h : PQ T} {x : T} {k : Nat} (hs : Next n k) (P : PoppedA N b n h x k)
    (hx : x = (n.qs k).time) (hk : (N.qc k).kind ≠ .null) (hr : Reach (N.qc k) (b k) NetOk (n.qs k))
    (hd : nextEventDescription (N.qc k) (n.qs k) = 2) (hfin : (n.qs k).time < ⊤)
    (ht : (n.qs k).time = headTime (n.qs k).departures)
    (hlt : headTime (n.qs k).departures < headTime (n.qs k).arrivals)
    {a : Agent T} (ha : (n.qs k).departures.head? = some (.agent a)) {e2 d : Nat} (he : e2 < N.nE)
    (hdest : n.destination N k a = .ok (e2, d)) (hcap : atCapacity (N.qc e2) (n.qs e2) = true)
    (hne : e2 ≠ k) :
    ∃ n1 n', ({ n with heap := h, t := x, numEvents := n.numEvents + 1, unifCalls := n.unifCalls + d } : Net T R).blocked N k e2 = .ok n1 ∧
      n1.pushBoth N k e2 (n.qs e2).time = .ok n' ∧ StepOutA N n n' ∧ NetInvA N b n' := by
  have hloss : (N.qc e2).kind = .loss ∨ (N.qc e2).kind = .resource := by
    unfold atCapacity at hcap
    cases h1 : (N.qc e2).kind <;> simp [h1] at hcap ⊢
  have hk2 : (N.qc e2).kind ≠ .null := by rcases hloss with h1 | h1 <;> simp [h1]
  have hr2 : Reach (N.qc e2) (b e2) NetOk (n.qs e2) := by
    rcases hi.good e2 he with h1 | h1
    · exact h1.2
    · exact absurd h1.1 hk2
  have hb2 := hr2.baseA hk2
  have hle2 : (n.qs k).time ≤ headTime (n.qs e2).departures := by
    rw [← hx]
    refine (P.min e2 he).trans ?_
    rw [hb2.time, nextTime]; exact min_le_right _ _
  obtain ⟨s1, a', heff, hr1⟩ := delay_effA hk (hN.fwd k P.lt) hr hlt
    (if n.bas then some (N.jit n.jitCalls (headTime (n.qs e2).departures)) else none) (by
      intro y hy
      split at hy
      · simp only [Option.some.injEq] at hy
        rw [← hy]; exact hle2.trans (hN.jit _ _)
      · simp at hy)
  have haa : a' = a := by have := heff.head; rw [ha] at this; simpa using this.symm
  subst haa
  obtain ⟨t2, ht2⟩ : ∃ t2 : QS T, t2 = { n.qs e2 with numBlocked := (n.qs e2).numBlocked + 1 } := ⟨_, rfl⟩
  have hrt : Reach (N.qc e2) (b e2) NetOk t2 :=
    hr2.step .note trivial (by simp [QOp.run, hcap, ht2])
  have f1 : t2.time = (n.qs e2).time := by rw [ht2]
  have f2 : t2.departures = (n.qs e2).departures := by rw [ht2]
  have f3 : t2.arrivals = (n.qs e2).arrivals := by rw [ht2]
  have f4 : t2.currentT = (n.qs e2).currentT := by rw [ht2]
  have f5 : t2.numTotal = (n.qs e2).numTotal := by rw [ht2]
  have hM := P.mid.upd (m := { n with heap := h, t := x, numEvents := n.numEvents + 1, qs := Function.update n.qs e2 t2 }) he (.inl ⟨hk2, hrt⟩)
    (fun hs => by rw [f4]; exact P.mid.clk e2 he hs) (by rw [f1]; exact P.min e2 he)
    (fun y hy _ => by rw [pendT_congr f3 f2]; exact hy)
    rfl rfl rfl rfl
    (by rw [f5]; exact hi.num e2 he) (fun j hj => rfl)
  replace hM := hM.mono (D' := fun j => j = k) (by
    rintro j - (h1 | h1)
    · exact h1
    · exact absurd (show t2.time = (n.qs e2).time from f1) h1.2) P.inv.nodes
  have hM2 := hM.upd (m := { n with
      heap := h, t := x, numEvents := n.numEvents + 1,
      unifCalls := n.unifCalls + d,
      jitCalls := if n.bas then n.jitCalls + 1 else n.jitCalls,
      qs := Function.update (Function.update n.qs e2 t2) k s1 }) P.lt (.inl ⟨hk, hr1⟩)
    (fun hs => by rw [heff.same.2.2.1]; exact P.mid.clk k P.lt hs)
    (by show x ≤ _; rw [hx]; exact heff.ge)
    (fun y hy hlt => by
      refine heff.pend y ?_ (by rw [← hx]; exact hlt)
      simpa [Function.update_of_ne (Ne.symm hne)] using hy)
    rfl rfl rfl rfl (by rw [heff.same.2.2.2.1]; exact hi.num k P.lt) (fun j hj => rfl)
  have hblk : ({ n with heap := h, t := x, numEvents := n.numEvents + 1, unifCalls := n.unifCalls + d } : Net T R).blocked N k e2 = .ok
      { n with
        heap := h, t := x, numEvents := n.numEvents + 1,
        unifCalls := n.unifCalls + d,
        jitCalls := if n.bas then n.jitCalls + 1 else n.jitCalls,
        qs := Function.update (Function.update n.qs e2 t2) k s1 } := by
    have hev := heff.ev
    unfold Net.blocked
    simp only [Net.setQ, Function.update_self, Function.update_of_ne hne,
      Function.update_of_ne (Ne.symm hne), Function.update_idem, hev, ht2]
  have hte2 : (Function.update (Function.update n.qs e2 t2) k s1 e2).time = (n.qs e2).time := by
    rw [Function.update_of_ne hne, Function.update_self, f1]
  obtain ⟨h', g1, g2, g3⟩ := (hM2.mono (D' := fun j => j = k ∨ (j = e2 ∧
      (Function.update (Function.update n.qs e2 t2) k s1 e2).time ≠ (n.qs e2).time))
      (by rintro j - (h1 | h1); exacts [.inl h1, .inl h1.1]) P.inv.nodes).pushBoth hN P.inv P.lt he P.left
      P.leftDead (fun _ h' => absurd hte2 h')
  refine ⟨_, _, hblk, g1, ?_, NetInvA.mk' g3 g2 (hi.initialized hs.1)⟩
  exact .block k e2 a' s1 d P.lt hs he (Ne.symm hne) hk hfin (fun j hj => hx ▸ P.min j hj) hd hdest hloss hcap
    heff (by simp only [ht2]) rfl hx rfl rfl ⟨rfl, rfl, rfl, rfl⟩

theorem move_stepA {N : NetCfg T R} {b : Nat → Bool} {n : Net T R} (hN : N.OkA) (hi : NetInvA N b n)
    {h : PQ T} {x : T} {k : Nat} (hs : Next n k) (P : PoppedA N b n h x k)
    (hx : x = (n.qs k).time) (hk : (N.qc k).kind ≠ .null) (hr : Reach (N.qc k) (b k) NetOk (n.qs k))
    (hd : nextEventDescription (N.qc k) (n.qs k) = 2) (hfin : (n.qs k).time < ⊤)
    (ht : (n.qs k).time = headTime (n.qs k).departures)
    (hlt : headTime (n.qs k).departures < headTime (n.qs k).arrivals)
    {a : Agent T} (ha : (n.qs k).departures.head? = some (.agent a)) {e2 d : Nat} (he : e2 < N.nE)
    (hout : e2 ∈ N.outEdges (N.qc k).edge.tgt)
    (hdest : n.destination N k a = .ok (e2, d)) (hcap : atCapacity (N.qc e2) (n.qs e2) = true → e2 = k) :
    ∃ n1 n', ({ n with heap := h, t := x, numEvents := n.numEvents + 1, unifCalls := n.unifCalls + d } : Net T R).move N k e2 x = .ok n1 ∧
      n1.pushBoth N k e2 (n.qs e2).time = .ok n' ∧ StepOutA N n n' ∧ NetInvA N b n' := by
  obtain ⟨s1, a0, a', hdep, hr1⟩ := dep_effA hk (hN.fwd k P.lt) hr hlt
  have haa : a0 = a := by have := hdep.head; rw [ha] at this; simpa using this.symm
  subst haa
  have hat : a'.time = x := by rw [hdep.time, hx]
  have haeq : ({ a' with time := x } : Agent T) = a' := by rw [← hat]
  have hMA := P.mid.upd (m := { n with
      heap := h, t := x, numEvents := n.numEvents + 1,
      qs := Function.update n.qs k s1,
      numAgents := Function.update n.numAgents k s1.numTotal }) P.lt (.inl ⟨hk, hr1⟩)
    (fun _ => by rw [hdep.cur, ← hx]) (by show x ≤ _; rw [hx]; exact hdep.ge)
    (fun y hy hlt => hdep.pend y hy (by rw [← hx]; exact hlt))
    rfl rfl rfl rfl (by simp) (fun j hj => by simp [hj])
  replace hMA := hMA.mono (D' := fun j => j = k) (by rintro j - (h1 | h1); exacts [h1, h1.1]) P.inv.nodes
  obtain ⟨q2, hq2⟩ : ∃ q2, q2 = Function.update n.qs k s1 e2 := ⟨_, rfl⟩
  have good2 : QGoodA (N.qc e2) (b e2) q2 := by rw [hq2]; exact hMA.good e2 he
  have tau2 : x ≤ q2.time := by rw [hq2]; exact hMA.tau e2 he
  obtain ⟨off, hoff⟩ : ∃ off, off = stopAt N n k e2 s1.numTotal := ⟨_, rfl⟩
  -- the receiving queue
  have hrecv : ∃ m s2, addArrivalAgent (N.qc e2) q2 a' = .ok m ∧
      nextEvent (N.qc e2) (if off m then setInactive m else m) = .ok (s2, none) ∧
      RecvOutA (N.qc e2) off q2 s2 a' ∧ QGoodA (N.qc e2) (b e2) s2 ∧
      ((N.qc e2).kind ≠ .null → s2.currentT ≤ x) ∧ x ≤ s2.time ∧
      (∀ y ∈ pendT q2, x < y → y ∈ pendT s2) ∧
      (N.NoLoopA → s2.time ≠ (n.qs e2).time → s2.time < ⊤) := by
    rcases good2 with ⟨hk2, hr2⟩ | ⟨hk2, hn2⟩
    · have clk2 : q2.currentT ≤ x := by rw [hq2]; exact hMA.clk e2 he hk2
      obtain ⟨s2, heff, hr2'⟩ := recv_effA hk2 (hN.fwd e2 he) hr2 (by rw [hat]; exact clk2)
        (by rw [hat]; exact tau2) (by rw [hat, hx]; exact hfin) off
      obtain ⟨m, a1, a2, a3, a4, a5, a6, a7, a8, a9, a10, a11, a12, a13⟩ := heff.mid
      have hrm0 : Reach (N.qc e2) (b e2) NetOk m := hr2.step (.handover a')
        (by show q2.currentT ≤ a'.time; rw [hat]; exact clk2) (by simp [QOp.run, a1])
      have hrm := maybeInactive (off m) hrm0
      obtain ⟨m1, m2, m3, -, -, -⟩ := maybeInactive_same (off m) m
      have hbm := hrm0.baseA hk2
      have hm_le : headTime m.arrivals ≤ a'.time := hbm.okA.le a' (a8.mem_iff.mpr (by simp))
      have hm_eq : m.time = headTime m.arrivals := by
        refine le_antisymm ?_ (by rw [a12]; exact hm_le)
        rw [hbm.time, nextTime]; exact min_le_left _ _
      refine ⟨m, s2, a1, a13.ev, .queue hk2 heff, .inl ⟨hk2, hr2'⟩,
        fun _ => by rw [heff.cur, hat], by rw [← hat]; exact heff.ge,
        fun y hy hlt => heff.pend y hy (by rw [hat]; exact hlt), ?_⟩
      intro hF hne
      by_cases hke : e2 = k
      · exact absurd (hke ▸ hout) (hF k P.lt hk)
      · have hqe : q2 = n.qs e2 := by rw [hq2, Function.update_of_ne hke]
        by_cases hold : (n.qs e2).time < ⊤
        · exact heff.fin (by rw [hqe]; exact hold)
        · rw [not_lt_top_iff.mp hold] at hne; exact lt_top_iff_ne_top.mpr hne
    · have hke : e2 ≠ k := by
        rintro rfl
        exact hk hk2
      have hqe : q2 = n.qs e2 := by rw [hq2, Function.update_of_ne hke]
      obtain ⟨m, a1, a2, a3, a4⟩ := null_recv hk2 hn2 a' off
      refine ⟨m, _, a1, a4, .null m hk2 a1 a3 a2 rfl, .inr ⟨hk2, a3⟩, ?_, ?_, ?_, ?_⟩
      · intro h1; exact absurd hk2 h1
      · rw [a3.1]; exact le_top
      · intro y hy hlt
        obtain ⟨-, -, -, h4, -, h6⟩ := hn2
        rcases mem_pendT.mp hy with ⟨z, hz, -⟩ | ⟨z, hz, -⟩
        · rw [h4] at hz; simp [agents] at hz
        · rw [h6] at hz; simp [agents] at hz
      · intro _ hne
        rw [a3.1] at hne
        rw [← hqe, hn2.1] at hne
        exact absurd rfl hne
  obtain ⟨m, s2, r1, r2, r3, r4, r5, r6, r7, r9⟩ := hrecv
  have hMB := hMA.upd (m := { n with
      heap := h, t := x, numEvents := n.numEvents + 1,
      unifCalls := n.unifCalls + d,
      qs := Function.update (Function.update n.qs k s1) e2 s2,
      numAgents := Function.update (Function.update n.numAgents k s1.numTotal) e2 s2.numTotal }) he r4 r5 r6
    (by show ∀ y ∈ pendT (Function.update n.qs k s1 e2), _; rw [← hq2]; exact r7) rfl rfl rfl rfl (by simp) (fun j hj => by simp [hj])
  have hmv : ({ n with heap := h, t := x, numEvents := n.numEvents + 1, unifCalls := n.unifCalls + d } : Net T R).move N k e2 x = .ok
      { n with
        heap := h, t := x, numEvents := n.numEvents + 1,
        unifCalls := n.unifCalls + d,
        qs := Function.update (Function.update n.qs k s1) e2 s2,
        numAgents := Function.update (Function.update n.numAgents k s1.numTotal) e2 s2.numTotal } := by
    unfold Net.move
    have hoffm : off m = (m.active && Net.maxed N { n with
        numAgents := Function.update (Function.update n.numAgents k s1.numTotal) e2 m.numTotal }) := by
      rw [hoff]; rfl
    rw [hoffm] at r2
    have key : ∀ z : Net T R, z.numAgents =
        Function.update (Function.update n.numAgents k s1.numTotal) e2 m.numTotal →
        nextEvent (N.qc e2) (if (m.active && Net.maxed N z) = true then setInactive m else m) =
          .ok (s2, none) := by
      intro z hz
      have : Net.maxed N z = Net.maxed N { n with
        numAgents := Function.update (Function.update n.numAgents k s1.numTotal) e2 m.numTotal } := by
        unfold Net.maxed Net.total; rw [hz]
      rw [this]; exact r2
    by_cases hke : e2 = k
    · subst hke
      simp only [Function.update_idem] at key
      simp only [Function.update_self] at hq2
      subst hq2
      simp only [hdep.ev, Net.setQ, Function.update_self, haeq, r1, Net.setNum, hN.idx e2 he,
        Function.update_idem, key]
    · have hke' := Ne.symm hke
      rw [hq2] at r1
      simp only [hdep.ev, Net.setQ, haeq, r1, Net.setNum, hN.idx k P.lt, Function.update_idem,
        Function.update_self, Function.update_of_ne hke', key]
  have hse : (Function.update (Function.update n.qs k s1) e2 s2 e2).time = s2.time := by
    rw [Function.update_self]
  obtain ⟨h', g1, g2, g3⟩ := (hMB.mono (D' := fun j => j = k ∨ (j = e2 ∧
      (Function.update (Function.update n.qs k s1) e2 s2 e2).time ≠ (n.qs e2).time))
      (by
        rintro j - (h1 | ⟨h1, h2⟩)
        · exact .inl h1
        · by_cases hke : e2 = k
          · exact .inl (h1.trans hke)
          · refine .inr ⟨h1, ?_⟩
            rw [hse]
            simpa [Function.update_of_ne hke] using h2) P.inv.nodes).pushBoth hN P.inv P.lt he P.left
      P.leftDead (fun hF h' => by
        show (Function.update (Function.update n.qs k s1) e2 s2 e2).time < ⊤
        rw [hse]
        exact r9 hF (by rw [← hse]; exact h'))
  refine ⟨_, _, hmv, g1, ?_, NetInvA.mk' g3 g2 (hi.initialized hs.1)⟩
  exact .move k e2 a0 a' s1 s2 d P.lt hs he hk hfin (fun j hj => hx ▸ P.min j hj) hd hdest hcap hdep
    (by rw [← hq2, ← hoff]; exact r3) rfl rfl hx rfl rfl ⟨rfl, rfl, rfl, rfl⟩

/-- One call of `_simulate_next_event`. -/
theorem step_specA {N : NetCfg T R} {b : Nat → Bool} {n : Net T R} (hN : N.OkA) (hi : NetInvA N b n)
    (hin : n.initialized = true) :
    (∃ n', n.step N = .ok n' ∧ StepOutA N n n' ∧ NetInvA N b n') ∨
      (n.step N = .error (.py .typeError) ∧ ¬ N.NoLoopA ∧ ∀ h p, n.heap.pop ≠ some (h, some p)) := by
  unfold Net.step
  by_cases hs : n.heap.size = 0
  · left
    rw [if_pos hs]
    refine ⟨_, rfl, .empty hs rfl, ?_⟩
    have hst := PQ.stored_nil hs
    have htop : ∀ k < N.nE, (n.qs k).time = ⊤ := by
      intro k hk
      by_contra h1
      have := ((hi.node k hk (by simp)).1 (lt_top_iff_ne_top.mpr h1)).2
      rw [hst] at this; simp at this
    have hno : ∀ p, p ∉ n.heap.stored := by rw [hst]; simp
    refine ⟨⟨hi.good, hi.num, ?_, ?_, fun _ _ _ => le_top, fun k hk => by rw [htop k hk], hi.probs, ?_, ?_, ?_⟩, hi.heap, fun h => by simp only at h; rw [hin] at h; exact absurd h (by simp)⟩
    · intro k hk _
      exact ⟨fun h => absurd h (by simp [htop k hk]), fun y hy => absurd hy (hno _)⟩
    · intro p hp; exact absurd hp (hno _)
    · intro _ y k hy; exact absurd hy (hno _)
    · intro _ y k hy; exact absurd hy (hno _)
    · intro _ y k _ hy; exact absurd hy (hno _)
  · rw [if_neg hs]
    obtain ⟨h, res, g1, g2, g3⟩ := poppedA hi hs
    rw [g1]
    cases res with
    | none => right; exact ⟨rfl, g2 rfl, fun h' p' h0 => by simp at h0⟩
    | some p =>
      obtain ⟨x, k⟩ := p
      left
      have P := g3 x k rfl
      simp only
      rw [if_neg (not_le.mpr P.lt)]
      rcases desc_casesA (hi.good k P.lt) with ⟨d1, d2⟩ | ⟨d1, d2, d3, d4, d5, d6⟩ | ⟨d1, d2, d3, d4, d5, d6⟩
      · rw [d1]
        simp only [show ¬ ((0 : Nat) = 2) by omega, show ¬ ((0 : Nat) = 1) by omega, if_false]
        refine ⟨_, rfl, .idle k x h P.lt hs d2 ?_ P.min g1 rfl, ?_⟩
        · rcases P.cases with h1 | h1
          · exact .inr (h1.trans d2)
          · exact .inl h1.2
        · refine NetInvA.mk' ((P.mid.drop P.lt d2 P.left P.leftDead).mono ?_ P.inv.nodes) P.inv
            (hi.initialized hs)
          rintro j - ⟨h1, h2⟩; exact h2 h1
      · have hx : x = (n.qs k).time := by
          rcases P.cases with h1 | h1
          · exact h1
          · rw [h1.1] at d4; exact absurd d4 (lt_irrefl _)
        rw [d1]
        simp only [show ¬ ((1 : Nat) = 2) by omega, if_false, if_true]
        exact arrival_stepA hN hi ⟨hs, h, x, g1⟩ P hx d2 d3 d1 d4 d5 d6
      · have hx : x = (n.qs k).time := by
          rcases P.cases with h1 | h1
          · exact h1
          · rw [h1.1] at d4; exact absurd d4 (lt_irrefl _)
        rw [d1]
        simp only [if_true]
        obtain ⟨_, a, a', hdep, -⟩ := dep_effA d2 (hN.fwd k P.lt) d3 d6
        obtain ⟨e2, d, q1, q2⟩ := destination_okA hN hi.probs P.lt d2 a
        have he := hN.outLt k P.lt d2 e2 q2
        unfold Net.departure
        simp only [hdep.head]
        have hq1 : Net.destination N ({ n with heap := h, t := x, numEvents := n.numEvents + 1 } : Net T R) k a
            = .ok (e2, d) := q1
        simp only [hq1, if_neg (not_le.mpr he), hN.idx k P.lt]
        by_cases hc : atCapacity (N.qc e2) (n.qs e2) = true ∧ e2 ≠ k
        · rw [if_pos hc]
          obtain ⟨n1, n', b1, b2, b3, b4⟩ := block_stepA hN hi ⟨hs, h, x, g1⟩ P hx d2 d3 d1 d4 d5 d6 hdep.head he q1 hc.1 hc.2
          exact ⟨n', by rw [b1]; exact b2, b3, b4⟩
        · rw [if_neg hc]
          obtain ⟨n1, n', b1, b2, b3, b4⟩ := move_stepA hN hi ⟨hs, h, x, g1⟩ P hx d2 d3 d1 d4 d5 d6 hdep.head he q2 q1
            (fun h1 => by by_contra h2; exact hc ⟨h1, h2⟩)
          exact ⟨n', by rw [b1]; exact b2, b3, b4⟩

end Verif
