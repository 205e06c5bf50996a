import Verif.NetQueue
import Verif.Props.Routing1

/-! # The invariant of a network (proof support) -/

set_option linter.unusedSectionVars false
set_option linter.unusedSimpArgs false
set_option linter.unusedVariables false

namespace Verif

variable {T R : Type*} [LinearOrder T] [OrderTop T] [Zero T] [LinearOrder R] [Add R]

/-- A NullQueue never holds anybody. -/
def NullQ (s : QS T) : Prop :=
  s.time = ⊤ ∧ s.numTotal = 0 ∧ s.numSystem = 0 ∧ s.arrivals = [.infty] ∧ s.queue = [] ∧
    s.departures = [.infty]

/-- State of a queue in a network: the result of a history of operations. -/
def QGood (c : QCfg T) (b : Bool) (s : QS T) : Prop :=
  (Simple c ∧ Reach c b NetOk s) ∨ (c.kind = .null ∧ NullQ s)

/-- What is assumed of a network: queue `k` sits at position `k` of `edge2queue`; the classes are
QueueServer, LossQueue and NullQueue; `arrival_f`, `service_f` and the jitter do not go back in time; the
out-edges of the target of every queue that is not a NullQueue exist and there is at least one. -/
structure NetCfg.Ok (N : NetCfg T R) : Prop where
  idx : ∀ k < N.nE, (N.qc k).edge.idx = k
  kinds : ∀ k < N.nE, Simple (N.qc k) ∨ (N.qc k).kind = .null
  fwd : ∀ k < N.nE, Forward (N.qc k)
  out : ∀ k < N.nE, Simple (N.qc k) → N.outEdges (N.qc k).edge.tgt ≠ []
  outLt : ∀ k < N.nE, Simple (N.qc k) → ∀ e ∈ N.outEdges (N.qc k).edge.tgt, e < N.nE
  jit : ∀ i t, t ≤ N.jit i t

/-- Service times are finite, and so is the jitter; there is a server and the buffer is not negative. -/
structure NetCfg.FinSvc (N : NetCfg T R) : Prop where
  svc : ∀ k < N.nE, Simple (N.qc k) → ∀ i t, t < ⊤ → (N.qc k).serviceF i t < ⊤
  jit : ∀ i t, t < ⊤ → N.jit i t < ⊤
  servers : ∀ k < N.nE, Simple (N.qc k) → ∀ m, (N.qc k).servers = .fin m → 1 ≤ m
  buffer : ∀ k < N.nE, Simple (N.qc k) → ∀ m, (N.qc k).buffer = .fin m → 0 ≤ m

/-- No queue is an out-edge of its own target. -/
def NetCfg.NoLoop (N : NetCfg T R) : Prop :=
  ∀ k < N.nE, Simple (N.qc k) → k ∉ N.outEdges (N.qc k).edge.tgt

/-- Either condition excludes that the key `(infty, k)` gets into the scheduler. -/
def NetCfg.NoInf (N : NetCfg T R) : Prop := N.FinSvc ∨ N.NoLoop

/-- The scheduler knows node `k`, whose next event is at `τ`. -/
def NodeOk (h : PQ T) (τ t : T) (k : Nat) : Prop :=
  (τ < ⊤ → h.Live (τ, k) ∧ (τ, k) ∈ h.stored) ∧
  ∀ y, (y, k) ∈ h.stored → h.Live (y, k) → y = τ ∨ (τ = ⊤ ∧ y ≤ t)

/-- The invariant, except that the scheduler does not know the nodes in `D`. -/
structure Mid (N : NetCfg T R) (b : Nat → Bool) (n : Net T R) (D : Nat → Prop) : Prop where
  good : ∀ k < N.nE, QGood (N.qc k) (b k) (n.qs k)
  num : ∀ k < N.nE, n.numAgents k = (n.qs k).numTotal
  node : ∀ k < N.nE, ¬ D k → NodeOk n.heap (n.qs k).time n.t k
  ge : ∀ p ∈ n.heap.stored, n.t ≤ p.1
  clk : ∀ k < N.nE, Simple (N.qc k) → (n.qs k).currentT ≤ n.t
  tau : ∀ k < N.nE, n.t ≤ (n.qs k).time
  probs : ∀ v, (n.probs v).length = (N.outEdges v).length
  pend : N.NoInf → ∀ y k, (y, k) ∈ n.heap.stored → n.t < y → y ∈ pendT (n.qs k)
  noTop : N.NoInf → ∀ y k, (y, k) ∈ n.heap.stored → y < ⊤
  dead : N.NoInf → ∀ y k, ¬ D k → (y, k) ∈ n.heap.stored → ¬ n.heap.Live (y, k) → (n.qs k).time < ⊤
  findep : N.FinSvc → ∀ k < N.nE, ∀ a ∈ agents (n.qs k).departures, a.time < ⊤

/-- The invariant. -/
structure NetInv (N : NetCfg T R) (b : Nat → Bool) (n : Net T R) : Prop extends
    Mid N b n (fun _ => False) where
  heap : n.heap.Inv N.nE ∨ n.heap.size = 0
  fresh : n.initialized = false → n.heap.size = 0 ∧ n.t = 0 ∧
    ∀ k < N.nE, (n.qs k).numTotal = 0 ∧ (Simple (N.qc k) → (n.qs k).currentT = 0)

theorem QGood.base {c : QCfg T} {b : Bool} {s : QS T} (h : QGood c b s) : QBase s := by
  rcases h with ⟨hk, h⟩ | ⟨hk, h⟩
  · exact h.base hk
  · obtain ⟨h1, -, -, h4, -, h6⟩ := h
    refine ⟨by rw [h4]; exact .single, by rw [h6]; exact .single, ?_⟩
    rw [h1, nextTime, h4, h6]; simp [headTime, Slot.time]

theorem PQ.stored_nil {h : PQ T} (hs : h.size = 0) : h.stored = [] := by simp [PQ.stored, hs]

theorem PQ.stored_length {n : Nat} {h : PQ T} (hi : h.Inv n) : h.stored.length = h.size := by
  simp only [PQ.stored, List.length_take, hi.len]
  exact min_eq_left hi.size_le

/-- Pushing the key of node `k`. -/
theorem push_node {m : Nat} {h : PQ T} (hI : h.Inv m) (g : Nat → T × Nat) (τ : T) {k : Nat} (hk : k < m) :
    ∃ h', h.push g τ k = some h' ∧ h'.Inv m ∧ h'.stored.Perm ((τ, k) :: h.stored) ∧
      h'.Live (τ, k) ∧ (∀ y, h'.Live (y, k) → y = τ) ∧
      ∀ y j, j ≠ k → (h'.Live (y, j) ↔ h.Live (y, j)) := by
  obtain ⟨h', h1, h2, h3, h4, -⟩ := PQ.push_spec hI g τ hk
  refine ⟨h', h1, h2, h3, ?_, ?_, ?_⟩
  · unfold PQ.Live; rw [h4]; exact List.getElem?_set_self (by rw [hI.qlen]; exact hk)
  · intro y hy
    unfold PQ.Live at hy
    rw [h4, List.getElem?_set_self (by rw [hI.qlen]; exact hk)] at hy
    simpa using hy.symm
  · intro y j hj
    unfold PQ.Live
    rw [h4, List.getElem?_set_ne (Ne.symm hj)]

theorem Mid.push {N : NetCfg T R} {b : Nat → Bool} {n : Net T R} {D : Nat → Prop} (hN : N.Ok)
    (h : Mid N b n D) (hI : n.heap.Inv N.nE) (i : Nat) {k : Nat} (hk : k < N.nE)
    (hfin : N.NoInf → (n.qs k).time < ⊤) :
    ∃ h', n.pushKey N i k = .ok { n with heap := h' } ∧ h'.Inv N.nE ∧
      Mid N b { n with heap := h' } (fun j => D j ∧ j ≠ k) ∧
      ∀ j ≠ k, ∀ y, ((y, j) ∈ h'.stored → (y, j) ∈ n.heap.stored) ∧ (h'.Live (y, j) ↔ n.heap.Live (y, j)) := by
  obtain ⟨h', g1, g2, g3, g4, g5, g6⟩ := push_node hI (N.garbage i) (n.qs k).time hk
  have hmem : ∀ y j, j ≠ k → (y, j) ∈ h'.stored → (y, j) ∈ n.heap.stored := by
    intro y j hj hy
    rcases List.mem_cons.mp (g3.mem_iff.mp hy) with hy | hy
    · simp only [Prod.mk.injEq] at hy; exact absurd hy.2 hj
    · exact hy
  have hmem' : ∀ p, p ∈ n.heap.stored → p ∈ h'.stored := fun p hp => g3.mem_iff.mpr (by simp [hp])
  refine ⟨h', by simp only [Net.pushKey, hN.idx k hk, g1], g2, ?_, ?_⟩
  · constructor
    · exact h.good
    · exact h.num
    · intro j hj hD
      by_cases hjk : j = k
      · subst hjk
        exact ⟨fun _ => ⟨g4, g3.mem_iff.mpr (by simp)⟩, fun y _ hy => .inl (g5 y hy)⟩
      · have := h.node j hj (fun hd => hD ⟨hd, hjk⟩)
        exact ⟨fun ht => ⟨(g6 _ _ hjk).mpr (this.1 ht).1, hmem' _ (this.1 ht).2⟩,
          fun y hy hl => this.2 y (hmem _ _ hjk hy) ((g6 _ _ hjk).mp hl)⟩
    · intro p hp
      rcases List.mem_cons.mp (g3.mem_iff.mp hp) with rfl | hp
      · exact h.tau k hk
      · exact h.ge p hp
    · exact h.clk
    · exact h.tau
    · exact h.probs
    · intro hF y j hy hlt
      by_cases hjk : j = k
      · subst hjk
        rcases List.mem_cons.mp (g3.mem_iff.mp hy) with hy | hy
        · simp only [Prod.mk.injEq] at hy
          rw [hy.1]
          exact (h.good j hk).base.mem_pend (hfin hF)
        · exact h.pend hF y j hy hlt
      · exact h.pend hF y j (hmem _ _ hjk hy) hlt
    · intro hF y j hy
      by_cases hjk : j = k
      · subst hjk
        rcases List.mem_cons.mp (g3.mem_iff.mp hy) with hy | hy
        · simp only [Prod.mk.injEq] at hy
          rw [hy.1]
          exact hfin hF
        · exact h.noTop hF y j hy
      · exact h.noTop hF y j (hmem _ _ hjk hy)
    · intro hF y j hD hy hl
      by_cases hjk : j = k
      · subst hjk; exact hfin hF
      · exact h.dead hF y j (fun hd => hD ⟨hd, hjk⟩) (hmem _ _ hjk hy) (fun hl' => hl ((g6 _ _ hjk).mpr hl'))
    · exact h.findep
  · intro j hj y
    exact ⟨hmem _ _ hj, g6 _ _ hj⟩

/-- A node with nothing scheduled need not be pushed. -/
theorem Mid.drop0 {N : NetCfg T R} {b : Nat → Bool} {n : Net T R} {D : Nat → Prop}
    (h : Mid N b n D) {k : Nat} (ht : (n.qs k).time = ⊤)
    (hl : ∀ y, (y, k) ∈ n.heap.stored → n.heap.Live (y, k) → y = n.t)
    (hd : N.NoInf → ∀ y, (y, k) ∈ n.heap.stored → n.heap.Live (y, k)) :
    Mid N b n (fun j => D j ∧ j ≠ k) := by
  constructor
  · exact h.good
  · exact h.num
  · intro j hj hD
    by_cases hjk : j = k
    · subst hjk
      refine ⟨fun h' => absurd h' (by rw [ht]; exact lt_irrefl _), fun y hy hl' => .inr ⟨ht, ?_⟩⟩
      rw [hl y hy hl']
    · exact h.node j hj (fun hd => hD ⟨hd, hjk⟩)
  · exact h.ge
  · exact h.clk
  · exact h.tau
  · exact h.probs
  · exact h.pend
  · exact h.noTop
  · intro hF y j hD hy hl'
    by_cases hjk : j = k
    · subst hjk; exact absurd (hd hF y hy) hl'
    · exact h.dead hF y j (fun hd => hD ⟨hd, hjk⟩) hy hl'
  · exact h.findep

theorem Mid.mono {N : NetCfg T R} {b : Nat → Bool} {n : Net T R} {D D' : Nat → Prop}
    (h : Mid N b n D) (hD : ∀ k, k < N.nE → D k → D' k) (hlt : ∀ p ∈ n.heap.stored, p.2 < N.nE) :
    Mid N b n D' :=
  ⟨h.good, h.num, fun k hk hd => h.node k hk (fun h' => hd (hD k hk h')), h.ge, h.clk, h.tau, h.probs, h.pend,
    h.noTop, fun hF y k hd hy hl => h.dead hF y k (fun h' => hd (hD k (hlt _ hy) h')) hy hl, h.findep⟩

theorem Mid.drop {N : NetCfg T R} {b : Nat → Bool} {n : Net T R} {D : Nat → Prop}
    (h : Mid N b n D) {k : Nat} (hk : k < N.nE) (ht : (n.qs k).time = ⊤)
    (hl : ∀ y, (y, k) ∈ n.heap.stored → n.heap.Live (y, k) → y = n.t)
    (hd : N.NoInf → ∀ y, (y, k) ∈ n.heap.stored → ¬ n.heap.Live (y, k) → n.t < y) :
    Mid N b n (fun j => D j ∧ j ≠ k) := by
  refine h.drop0 ht hl fun hF y hy => ?_
  by_contra hl'
  have h1 := (h.good k hk).base.le_pend (h.pend hF y k hy (hd hF y hy hl'))
  rw [ht, top_le_iff] at h1
  have := h.noTop hF y k hy
  rw [h1] at this
  exact lt_irrefl _ this

/-- The pushes after a departure event. -/
theorem Mid.pushBoth {N : NetCfg T R} {b : Nat → Bool} {n : Net T R} (hN : N.Ok) {k e2 : Nat} {old2 : T}
    (h : Mid N b n (fun j => j = k ∨ (j = e2 ∧ (n.qs e2).time ≠ old2))) (hI : n.heap.Inv N.nE)
    (hk : k < N.nE) (he : e2 < N.nE)
    (hl : ∀ y, (y, k) ∈ n.heap.stored → n.heap.Live (y, k) → y = n.t)
    (hd : N.NoInf → ∀ y, (y, k) ∈ n.heap.stored → ¬ n.heap.Live (y, k) → n.t < y)
    (hne : N.NoInf → (n.qs e2).time ≠ old2 → (n.qs e2).time < ⊤) :
    ∃ h', n.pushBoth N k e2 old2 = .ok { n with heap := h' } ∧ h'.Inv N.nE ∧
      Mid N b { n with heap := h' } (fun _ => False) := by
  unfold Net.pushBoth
  by_cases h2 : (n.qs e2).time ≠ old2
  · rw [if_pos h2]
    obtain ⟨h1, g1, g2, g3, g4⟩ := h.push hN hI (2 * n.numEvents) he (fun hF => hne hF h2)
    rw [g1]
    simp only
    by_cases hke : k = e2
    · subst hke
      rw [if_neg (by simp)]
      exact ⟨h1, rfl, g2, g3.mono (by rintro j - ⟨e | e, h'⟩ <;> simp_all) g2.nodes⟩
    · by_cases ht : (n.qs k).time < ⊤
      · rw [if_pos ⟨ht, by rw [hN.idx k hk, hN.idx e2 he]; simp [hke]⟩]
        obtain ⟨h3, k1, k2, k3, -⟩ := g3.push hN g2 (2 * n.numEvents + 1) hk (fun _ => ht)
        exact ⟨h3, k1, k2, k3.mono (by rintro j - ⟨⟨e | e, h'⟩, h''⟩ <;> simp_all) k2.nodes⟩
      · rw [if_neg (fun h' => ht h'.1)]
        refine ⟨h1, rfl, g2, ?_⟩
        refine (g3.drop hk (not_lt_top_iff.mp ht) ?_ ?_).mono
          (by rintro j - ⟨⟨e | e, h'⟩, h''⟩ <;> simp_all) g2.nodes
        · intro y hy hl'
          exact hl y ((g4 k hke y).1 hy) ((g4 k hke y).2.mp hl')
        · intro hF y hy hl'
          exact hd hF y ((g4 k hke y).1 hy) (fun h' => hl' ((g4 k hke y).2.mpr h'))
  · rw [if_neg h2]
    by_cases ht : (n.qs k).time < ⊤
    · rw [if_pos ht]
      obtain ⟨h1, g1, g2, g3, g4⟩ := h.push hN hI (2 * n.numEvents) hk (fun hF => ht)
      exact ⟨h1, g1, g2, g3.mono (by rintro j - ⟨e | e, h'⟩ <;> simp_all) g2.nodes⟩
    · rw [if_neg ht]
      exact ⟨n.heap, rfl, hI, (h.drop hk (not_lt_top_iff.mp ht) hl hd).mono
        (by rintro j - ⟨e | e, h'⟩ <;> simp_all) hI.nodes⟩

/-- Replacing a queue. -/
theorem Mid.upd {N : NetCfg T R} {b : Nat → Bool} {n m : Net T R} {D : Nat → Prop} (h : Mid N b n D)
    {k : Nat} (hk : k < N.nE) {s' : QS T} (hg : QGood (N.qc k) (b k) s')
    (hc : Simple (N.qc k) → s'.currentT ≤ n.t) (ht : n.t ≤ s'.time)
    (hp : ∀ y ∈ pendT (n.qs k), n.t < y → y ∈ pendT s')
    (hf : N.FinSvc → ∀ a ∈ agents s'.departures, a.time < ⊤)
    (hq : m.qs = Function.update n.qs k s') (hh : m.heap = n.heap) (hmt : m.t = n.t)
    (hpr : m.probs = n.probs) (hnk : m.numAgents k = s'.numTotal)
    (hnj : ∀ j ≠ k, m.numAgents j = n.numAgents j) :
    Mid N b m (fun j => D j ∨ (j = k ∧ s'.time ≠ (n.qs k).time)) := by
  have hqk : m.qs k = s' := by rw [hq]; simp
  have hqj : ∀ j, j ≠ k → m.qs j = n.qs j := by intro j hj; rw [hq]; simp [hj]
  constructor
  · intro j hj
    by_cases hjk : j = k
    · subst hjk; rw [hqk]; exact hg
    · rw [hqj j hjk]; exact h.good j hj
  · intro j hj
    by_cases hjk : j = k
    · subst hjk; rw [hqk]; exact hnk
    · rw [hqj j hjk, hnj j hjk]; exact h.num j hj
  · intro j hj hD
    rw [hh, hmt]
    by_cases hjk : j = k
    · subst hjk
      have h1 : s'.time = (n.qs j).time := by
        by_contra h1; exact hD (.inr ⟨rfl, h1⟩)
      rw [hqk, h1]
      exact h.node j hj (fun h' => hD (.inl h'))
    · rw [hqj j hjk]; exact h.node j hj (fun h' => hD (.inl h'))
  · rw [hh, hmt]; exact h.ge
  · intro j hj hs
    rw [hmt]
    by_cases hjk : j = k
    · subst hjk; rw [hqk]; exact hc hs
    · rw [hqj j hjk]; exact h.clk j hj hs
  · intro j hj
    rw [hmt]
    by_cases hjk : j = k
    · subst hjk; rw [hqk]; exact ht
    · rw [hqj j hjk]; exact h.tau j hj
  · rw [hpr]; exact h.probs
  · intro hF y j hy hlt
    rw [hh] at hy
    rw [hmt] at hlt
    by_cases hjk : j = k
    · subst hjk; rw [hqk]; exact hp y (h.pend hF y j hy hlt) hlt
    · rw [hqj j hjk]; exact h.pend hF y j hy hlt
  · rw [hh]; exact h.noTop
  · intro hF y j hD hy hl
    rw [hh] at hy hl
    by_cases hjk : j = k
    · subst hjk
      have h1 : s'.time = (n.qs j).time := by
        by_contra h1; exact hD (.inr ⟨rfl, h1⟩)
      rw [hqk, h1]
      exact h.dead hF y j (fun h' => hD (.inl h')) hy hl
    · rw [hqj j hjk]; exact h.dead hF y j (fun h' => hD (.inl h')) hy hl
  · intro hF j hj
    by_cases hjk : j = k
    · subst hjk; rw [hqk]; exact hf hF
    · rw [hqj j hjk]; exact h.findep hF j hj

/-- What is known after popping `(x, k)`. -/
structure Popped (N : NetCfg T R) (b : Nat → Bool) (n : Net T R) (h : PQ T) (x : T) (k : Nat) : Prop where
  lt : k < N.nE
  inv : h.Inv N.nE
  mid : Mid N b { n with heap := h, t := x, numEvents := n.numEvents + 1 } (fun j => j = k)
  left : ∀ y, (y, k) ∈ h.stored → h.Live (y, k) → y = x
  leftDead : N.NoInf → ∀ y, (y, k) ∈ h.stored → ¬ h.Live (y, k) → x < y
  now : n.t ≤ x
  min : ∀ j < N.nE, x ≤ (n.qs j).time
  cases : x = (n.qs k).time ∨ ((n.qs k).time = ⊤ ∧ x = n.t)
  fin : N.NoInf → x < ⊤
  old : N.NoInf → ∀ y, (y, k) ∈ h.stored → x < y → y ∈ pendT (n.qs k)

theorem popped {N : NetCfg T R} {b : Nat → Bool} {n : Net T R} (h : NetInv N b n) (hs : n.heap.size ≠ 0) :
    ∃ h' res, n.heap.pop = some (h', res) ∧ (res = none → ¬ N.NoInf) ∧
      ∀ x k, res = some (x, k) → Popped N b n h' x k := by
  have hI : n.heap.Inv N.nE := h.heap.resolve_right hs
  obtain ⟨h', res, g1, g2, g3, g4⟩ := PQ.pop_spec hI (by omega)
  have hlive : ∀ p, h'.Live p ↔ n.heap.Live p := by intro p; unfold PQ.Live; rw [g3]
  refine ⟨h', res, g1, ?_, ?_⟩
  · rintro rfl hF
    obtain ⟨e1, e2⟩ := g4
    have hne : n.heap.stored ≠ [] := by
      intro he
      have := PQ.stored_length hI
      rw [he] at this; simp at this; omega
    obtain ⟨p, hp⟩ := List.exists_mem_of_ne_nil _ hne
    have h1 := h.dead hF p.1 p.2 (by simp) hp (e2 _ hp)
    have h2 := (h.node p.2 (hI.nodes p hp) (by simp)).1 h1
    exact e2 _ h2.2 h2.1
  · rintro x k rfl
    obtain ⟨e1, stale, e2, e3, e4⟩ := g4
    have hmem : (x, k) ∈ n.heap.stored := e3.mem_iff.mpr (by simp)
    have hsub : ∀ p, p ∈ h'.stored → p ∈ n.heap.stored := fun p hp => e3.mem_iff.mpr (by simp [hp])
    have hk : k < N.nE := hI.nodes _ hmem
    have hnow := h.ge _ hmem
    simp only at hnow
    have hkeep : ∀ p, p ∈ n.heap.stored → n.heap.Live p → p = (x, k) ∨ p ∈ h'.stored := by
      intro p hp hl
      rcases List.mem_append.mp (e3.mem_iff.mp hp) with hp | hp
      · exact absurd hl (e2 p hp).1
      · simpa using hp
    have hmin : ∀ j < N.nE, x ≤ (n.qs j).time := by
      intro j hj
      by_cases ht : (n.qs j).time < ⊤
      · obtain ⟨a1, a2⟩ := (h.node j hj (by simp)).1 ht
        rcases hkeep _ a2 a1 with he | he
        · simp only [Prod.mk.injEq] at he; rw [he.1]
        · exact e4 _ he
      · rw [not_lt_top_iff.mp ht]; exact le_top
    have hleft : ∀ y, (y, k) ∈ h'.stored → h'.Live (y, k) → y = x := by
      intro y _ hl
      rw [hlive] at hl
      unfold PQ.Live at hl e1
      rw [e1] at hl
      simpa using hl.symm
    refine ⟨hk, g2, ?_, hleft, ?_, hnow, hmin, ?_, ?_, ?_⟩
    · constructor
      · exact h.good
      · exact h.num
      · intro j hj hjk
        have := h.node j hj (by simp)
        refine ⟨fun ht => ?_, fun y hy hl => ?_⟩
        · refine ⟨(hlive _).mpr (this.1 ht).1, ?_⟩
          rcases hkeep _ (this.1 ht).2 (this.1 ht).1 with he | he
          · simp only [Prod.mk.injEq] at he; exact absurd he.2 hjk
          · exact he
        · rcases this.2 y (hsub _ hy) ((hlive _).mp hl) with he | he
          · exact .inl he
          · exact .inr ⟨he.1, he.2.trans hnow⟩
      · exact e4
      · intro j hj hs'; exact (h.clk j hj hs').trans hnow
      · exact hmin
      · exact h.probs
      · intro hF y j hy hlt; exact h.pend hF y j (hsub _ hy) (hnow.trans_lt hlt)
      · intro hF y j hy; exact h.noTop hF y j (hsub _ hy)
      · intro hF y j hjk hy hl; exact h.dead hF y j (by simp) (hsub _ hy) (fun hl' => hl ((hlive _).mpr hl'))
      · exact h.findep
    · intro hF y hy hl
      rcases lt_or_eq_of_le (e4 _ hy) with hlt | heq
      · exact hlt
      · simp only at heq
        subst heq
        exact absurd ((hlive _).mpr e1) hl
    · rcases (h.node k hk (by simp)).2 x hmem e1 with he | he
      · exact .inl he
      · exact .inr ⟨he.1, le_antisymm he.2 hnow⟩
    · intro hF; exact h.noTop hF x k hmem
    · intro hF y hy hlt; exact h.pend hF y k (hsub _ hy) (hnow.trans_lt hlt)

end Verif
