import Verif.Net
import Verif.DrawMachine

/-! # A network as a machine fed with random draws (proof support) -/

set_option linter.unusedSectionVars false

namespace Verif

open MeasureTheory Set

variable {T : Type*} [LinearOrder T] [OrderTop T] [Zero T]

section Stream

variable {R : Type*} [LinearOrder R] [Add R]

/-- The network `N` when `uniform()` returns `ω 0`, `ω 1`, ... -/
def NetCfg.fed (N : NetCfg T R) (ω : ℕ → R) : NetCfg T R := { N with unif := ω }

/-- The next event is the departure of agent `a` from queue `k`. -/
structure Turn (N : NetCfg T R) (n : Net T R) (k : Nat) (a : Agent T) : Prop where
  next : n.heap.size ≠ 0 ∧ ∃ h x, n.heap.pop = some (h, some (x, k))
  inside : k < N.nE
  dep : nextEventDescription (N.qc k) (n.qs k) = 2
  first : (n.qs k).departures.head? = some (.agent a)

/-- The next event makes use of a random draw. -/
def Asks (N : NetCfg T R) (n : Net T R) : Prop :=
  ∃ k a, Turn N n k a ∧ a.kind ≠ .greedy ∧ 2 ≤ (N.outEdges (N.qc k).edge.tgt).length

theorem Turn.unique {N : NetCfg T R} {n : Net T R} {k k' : Nat} {a a' : Agent T} (h : Turn N n k a)
    (h' : Turn N n k' a') : k = k' ∧ a = a' := by
  obtain ⟨⟨-, g, x, h1⟩, -, -, h2⟩ := h
  obtain ⟨⟨-, g', x', h1'⟩, -, -, h2'⟩ := h'
  rw [h1] at h1'
  simp only [Option.some.injEq, Prod.mk.injEq] at h1'
  obtain ⟨-, -, rfl⟩ := h1'
  rw [h2] at h2'
  simp only [Option.some.injEq, Slot.agent.injEq] at h2'
  exact ⟨rfl, h2'⟩

theorem destination_fed (N : NetCfg T R) (n : Net T R) (k : Nat) (a : Agent T) (ω : ℕ → R) :
    n.destination (N.fed ω) k a = n.destination (N.fed fun _ => ω n.unifCalls) k a := rfl

theorem departure_fed (N : NetCfg T R) (n : Net T R) (k : Nat) (t : T) (ω : ℕ → R) :
    n.departure (N.fed ω) k t = n.departure (N.fed fun _ => ω n.unifCalls) k t := by
  unfold Net.departure
  split
  · rename_i a _
    rw [destination_fed]
    rfl
  · rfl

theorem step_fed (N : NetCfg T R) (n : Net T R) (ω : ℕ → R) :
    n.step (N.fed ω) = n.step (N.fed fun _ => ω n.unifCalls) := by
  by_cases hs : n.heap.size = 0
  · simp [Net.step, hs]
  · cases hp : n.heap.pop with
    | none => simp [Net.step, hs, hp]
    | some p =>
      obtain ⟨g, _ | ⟨x, k⟩⟩ := p
      · simp [Net.step, hs, hp]
      · have h := departure_fed N { n with heap := g, t := x, numEvents := n.numEvents + 1 } k x ω
        simp only [Net.step, hs, hp]
        rw [h]
        rfl

theorem Net.pushKey_calls {N : NetCfg T R} {n n' : Net T R} {i k : Nat} (h : n.pushKey N i k = .ok n') :
    n'.unifCalls = n.unifCalls := by
  unfold Net.pushKey at h
  split at h
  · simp at h
  · simp only [Except.ok.injEq] at h; rw [← h]

theorem Net.pushBoth_calls {N : NetCfg T R} {n n' : Net T R} {k e : Nat} {t : T} (h : n.pushBoth N k e t = .ok n') :
    n'.unifCalls = n.unifCalls := by
  unfold Net.pushBoth at h
  split at h
  · split at h
    · simp at h
    · rename_i n1 h1
      split at h
      · rw [Net.pushKey_calls h, Net.pushKey_calls h1]
      · simp only [Except.ok.injEq] at h; rw [← h, Net.pushKey_calls h1]
  · split at h
    · exact Net.pushKey_calls h
    · simp only [Except.ok.injEq] at h; rw [← h]

theorem Net.blocked_calls {N : NetCfg T R} {n n' : Net T R} {k e : Nat} (h : n.blocked N k e = .ok n') :
    n'.unifCalls = n.unifCalls := by
  unfold Net.blocked at h
  simp only at h
  split at h
  · simp at h
  · simp only [Except.ok.injEq] at h; rw [← h]; rfl

theorem Net.move_calls {N : NetCfg T R} {n n' : Net T R} {k e : Nat} {t : T} (h : n.move N k e t = .ok n') :
    n'.unifCalls = n.unifCalls := by
  unfold Net.move at h
  split at h
  · simp at h
  · simp at h
  · simp only at h
    split at h
    · simp at h
    · split at h
      · simp at h
      · simp only [Except.ok.injEq] at h; rw [← h]; rfl

theorem destination_calls {N : NetCfg T R} {n : Net T R} {k e d : Nat} {a : Agent T}
    (h : n.destination N k a = .ok (e, d)) :
    d = if a.kind = .greedy ∨ (N.outEdges (N.qc k).edge.tgt).length ≤ 1 then 0 else 1 := by
  unfold Net.destination at h
  simp only at h
  cases hk : a.kind with
  | greedy =>
    simp only [hk] at h
    split at h
    · simp at h
    · simp only [Except.ok.injEq, Prod.mk.injEq] at h; simp [h.2]
  | plain =>
    simp only [hk] at h
    split at h
    · simp at h
    · simp only [Except.ok.injEq, Prod.mk.injEq] at h; simp [← h.2]
  | resource x y =>
    simp only [hk] at h
    split at h
    · simp at h
    · simp only [Except.ok.injEq, Prod.mk.injEq] at h; simp [← h.2]

theorem departure_calls {N : NetCfg T R} {n n' : Net T R} {k : Nat} {t : T} (h : n.departure N k t = .ok n') :
    ∃ a, (n.qs k).departures.head? = some (.agent a) ∧
      n'.unifCalls = n.unifCalls + if a.kind = .greedy ∨ (N.outEdges (N.qc k).edge.tgt).length ≤ 1 then 0 else 1 := by
  unfold Net.departure at h
  split at h
  · rename_i a ha
    refine ⟨a, ha, ?_⟩
    split at h
    · simp at h
    · rename_i e d hd
      split at h
      · simp at h
      · simp only at h
        split at h
        · simp at h
        · rename_i n1 h1
          rw [Net.pushBoth_calls h, ← destination_calls hd]
          split at h1
          · rw [Net.blocked_calls h1]
          · rw [Net.move_calls h1]
  · simp at h

theorem arrival_calls {N : NetCfg T R} {n n' : Net T R} {k : Nat} (h : n.arrival N k = .ok n') :
    n'.unifCalls = n.unifCalls := by
  unfold Net.arrival at h
  simp only at h
  split at h
  · simp at h
  · split at h
    · rw [Net.pushKey_calls h]; rfl
    · simp only [Except.ok.injEq] at h; rw [← h]; rfl

open Classical in
theorem step_calls {N : NetCfg T R} {n n' : Net T R} (h : n.step N = .ok n') :
    n'.unifCalls = n.unifCalls + if Asks N n then 1 else 0 := by
  unfold Net.step at h
  split at h
  · rename_i hs
    simp only [Except.ok.injEq] at h
    rw [if_neg]
    · rw [← h]; rfl
    · rintro ⟨k, a, ht, -⟩; exact ht.next.1 hs
  · rename_i hs
    split at h
    · simp at h
    · simp at h
    · rename_i g x k hp
      split at h
      · simp at h
      · rename_i hk
        simp only at h
        split at h
        · rename_i hd
          obtain ⟨a, h1, h2⟩ := departure_calls h
          have ht : Turn N n k a := ⟨⟨hs, g, x, hp⟩, by omega, hd, h1⟩
          rw [h2]
          congr 1
          by_cases hA : a.kind = .greedy ∨ (N.outEdges (N.qc k).edge.tgt).length ≤ 1
          · rw [if_pos hA, if_neg]
            rintro ⟨k', a', ht', g1, g2⟩
            obtain ⟨rfl, rfl⟩ := ht.unique ht'
            rcases hA with hA | hA
            · exact g1 hA
            · omega
          · push Not at hA
            rw [if_neg (by push Not; exact hA), if_pos ⟨k, a, ht, hA.1, hA.2⟩]
        · rename_i hd
          have hno : ¬ Asks N n := by
            rintro ⟨k', a', ht, -⟩
            obtain ⟨⟨-, g', x', h1'⟩, -, h2', -⟩ := ht
            rw [hp] at h1'
            simp only [Option.some.injEq, Prod.mk.injEq] at h1'
            obtain ⟨-, -, rfl⟩ := h1'
            exact hd h2'
          rw [if_neg hno]
          split at h
          · rw [arrival_calls h]; rfl
          · simp only [Except.ok.injEq] at h; rw [← h]; rfl

theorem Turn.fed {N : NetCfg T R} {n : Net T R} {k : Nat} {a : Agent T} {ω : ℕ → R} :
    Turn (N.fed ω) n k a ↔ Turn N n k a :=
  ⟨fun h => ⟨h.1, h.2, h.3, h.4⟩, fun h => ⟨h.1, h.2, h.3, h.4⟩⟩

theorem Asks.fed {N : NetCfg T R} {n : Net T R} {ω : ℕ → R} : Asks (N.fed ω) n ↔ Asks N n :=
  ⟨fun ⟨k, a, h1, h2⟩ => ⟨k, a, Turn.fed.mp h1, h2⟩, fun ⟨k, a, h1, h2⟩ => ⟨k, a, Turn.fed.mpr h1, h2⟩⟩

/-- The rest of a departure event once the destination is known. -/
def Net.depart2 (N : NetCfg T R) (n : Net T R) (k1 : Nat) (q1t : T) (r : Except DestErr (Nat × Nat)) : Except DestErr (Net T R) :=
  match r with
  | .error e => .error e
  | .ok (e2, draws) =>
    if N.nE ≤ e2 then .error (.py .indexError)
    else
      let n := { n with unifCalls := n.unifCalls + draws }
      let old2 := (n.qs e2).time
      match (if atCapacity (N.qc e2) (n.qs e2) = true ∧ e2 ≠ (N.qc k1).edge.idx then n.blocked N k1 e2
             else n.move N k1 e2 q1t) with
      | .error e => .error e
      | .ok n' => n'.pushBoth N k1 e2 old2

theorem departure_eq {N : NetCfg T R} {n : Net T R} {k : Nat} {t : T} {a : Agent T}
    (h : (n.qs k).departures.head? = some (.agent a)) : n.departure N k t = n.depart2 N k t (n.destination N k a) := by
  unfold Net.departure
  rw [h]
  rfl

theorem agentDest_single (out : List Nat) (pr : List R) (h : out.length ≤ 1) : ∃ r, ∀ u, agentDest out pr u = r := by
  refine ⟨agentDest out ([] : List Nat) 0, fun u => ?_⟩
  unfold agentDest
  rw [if_pos h, if_pos h]

/-- How a step depends on the draw. -/
theorem step_factor (N : NetCfg T R) (n : Net T R) : (∃ r, ∀ u, n.step (N.fed fun _ => u) = r) ∨
    ∃ k a, Turn N n k a ∧ a.kind ≠ .greedy ∧ 2 ≤ (N.outEdges (N.qc k).edge.tgt).length ∧
      ∃ f : Except DestErr Nat → Except DestErr (Net T R), ∀ u,
        n.step (N.fed fun _ => u) = f (agentDest (N.outEdges (N.qc k).edge.tgt) (n.probs (N.qc k).edge.tgt) u) := by
  by_cases hs : n.heap.size = 0
  · left; exact ⟨.ok { n with t := ⊤ }, fun u => by simp [Net.step, hs]⟩
  · cases hp : n.heap.pop with
    | none => left; exact ⟨.error (.mem .outOfBounds), fun u => by simp [Net.step, hs, hp]⟩
    | some p =>
      obtain ⟨g, _ | ⟨x, k⟩⟩ := p
      · left; exact ⟨.error (.py .typeError), fun u => by simp [Net.step, hs, hp]⟩
      · by_cases hk : N.nE ≤ k
        · left; exact ⟨.error (.py .indexError), fun u => by simp [Net.step, hs, hp, NetCfg.fed, hk]⟩
        · by_cases hd : nextEventDescription (N.qc k) (n.qs k) = 2
          · have hst : ∀ u, n.step (N.fed fun _ => u) =
                ({ n with heap := g, t := x, numEvents := n.numEvents + 1 } : Net T R).departure (N.fed fun _ => u) k x := by
              intro u; simp only [Net.step, hs, hp, NetCfg.fed, hk, hd, if_false, if_true]
            have hno : (∀ a, (n.qs k).departures.head? ≠ some (.agent a)) → ∃ r, ∀ u, n.step (N.fed fun _ => u) = r := by
              intro hne
              refine ⟨.error (.py .attributeError), fun u => ?_⟩
              rw [hst]
              unfold Net.departure
              split
              · rename_i a ha; exact absurd ha (hne a)
              · rfl
            by_cases hex : ∃ a, (n.qs k).departures.head? = some (.agent a)
            · obtain ⟨a, ha⟩ := hex
              have hst2 : ∀ u, n.step (N.fed fun _ => u) =
                  Net.depart2 N { n with heap := g, t := x, numEvents := n.numEvents + 1 } k x
                    (n.destination (N.fed fun _ => u) k a) := by
                intro u
                exact (hst u).trans (departure_eq (N := N.fed fun _ => u)
                  (n := { n with heap := g, t := x, numEvents := n.numEvents + 1 }) (a := a) ha)
              by_cases hg : a.kind = .greedy
              · left
                refine ⟨_, fun u => (hst2 u).trans (?_ : _ = Net.depart2 N { n with heap := g, t := x, numEvents := n.numEvents + 1 } k x
                  (n.destination N k a))⟩
                congr 1
                simp only [Net.destination, hg]
                rfl
              · have hdest : ∀ u, n.destination (N.fed fun _ => u) k a =
                    (match agentDest (N.outEdges (N.qc k).edge.tgt) (n.probs (N.qc k).edge.tgt) u with
                    | .error e => .error e
                    | .ok e => .ok (e, if (N.outEdges (N.qc k).edge.tgt).length ≤ 1 then 0 else 1) :
                      Except DestErr (Nat × Nat)) := by
                  intro u
                  unfold Net.destination
                  cases hkind : a.kind with
                  | greedy => exact absurd hkind hg
                  | plain => rfl
                  | resource _ _ => rfl
                by_cases hlen : 2 ≤ (N.outEdges (N.qc k).edge.tgt).length
                · right
                  refine ⟨k, a, ⟨⟨hs, g, x, hp⟩, by omega, hd, ha⟩, hg, hlen, fun r =>
                    Net.depart2 N { n with heap := g, t := x, numEvents := n.numEvents + 1 } k x
                      (match r with
                    | .error e => .error e
                    | .ok e => .ok (e, if (N.outEdges (N.qc k).edge.tgt).length ≤ 1 then 0 else 1)), fun u => ?_⟩
                  rw [hst2, hdest]
                · left
                  obtain ⟨r, hc⟩ := agentDest_single (N.outEdges (N.qc k).edge.tgt) (n.probs (N.qc k).edge.tgt) (by omega)
                  have h0 : ∀ u, n.step (N.fed fun _ => u) = _ := fun u => by rw [hst2, hdest, hc]
                  exact ⟨_, h0⟩
            · left; exact hno (by push Not at hex; exact hex)
          · left
            refine ⟨n.step N, fun u => ?_⟩
            simp only [Net.step, hs, hp, NetCfg.fed, hk, hd, if_false]
            rfl

theorem step_unused {N : NetCfg T R} {n : Net T R} (h : ¬ Asks N n) (u u' : R) :
    n.step (N.fed fun _ => u) = n.step (N.fed fun _ => u') := by
  rcases step_factor N n with ⟨r, hr⟩ | ⟨k, a, h1, h2, h3, -⟩
  · rw [hr, hr]
  · exact absurd ⟨k, a, h1, h2, h3⟩ h

theorem Discrete.prod {Ω σ τ : Type*} [MeasurableSpace Ω] {f : Ω → σ} {g : Ω → τ} (hf : Discrete f) (hg : Discrete g) :
    Discrete fun ω => (f ω, g ω) := by
  refine ⟨fun s => ?_, (hf.count.prod hg.count).mono ?_⟩
  · have : {ω | (f ω, g ω) = s} = {ω | f ω = s.1} ∩ {ω | g ω = s.2} := by
      ext ω; simp [Prod.ext_iff]
    rw [this]
    exact (hf.meas _).inter (hg.meas _)
  · rintro _ ⟨ω, rfl⟩
    exact ⟨⟨ω, rfl⟩, ω, rfl⟩

/-- Agent `a` wants to go from queue `k` to queue `e` in the next event. -/
def Wants (N : NetCfg T R) (n : Net T R) (k : Nat) (a : Agent T) (e : Nat) : Prop :=
  Turn N n k a ∧ ∃ d, n.destination N k a = .ok (e, d)

theorem Wants.unique {N : NetCfg T R} {n : Net T R} {k k' e e' : Nat} {a a' : Agent T} (h : Wants N n k a e)
    (h' : Wants N n k' a' e') : k = k' ∧ a = a' ∧ e = e' := by
  obtain ⟨h1, d, h2⟩ := h
  obtain ⟨h1', d', h2'⟩ := h'
  obtain ⟨rfl, rfl⟩ := h1.unique h1'
  rw [h2] at h2'
  simp only [Except.ok.injEq, Prod.mk.injEq] at h2'
  exact ⟨rfl, rfl, h2'.1⟩

open Classical in
/-- The queue, the agent and the queue it wants to go to, if the next event is a departure. -/
noncomputable def wish (N : NetCfg T R) (n : Net T R) : Option (Nat × Agent T × Nat) :=
  if h : ∃ x : Nat × Agent T × Nat, Wants N n x.1 x.2.1 x.2.2 then some h.choose else none

theorem wish_iff {N : NetCfg T R} {n : Net T R} {k e : Nat} {a : Agent T} :
    wish N n = some (k, a, e) ↔ Wants N n k a e := by
  unfold wish
  constructor
  · intro h
    split at h
    · rename_i hx
      have := hx.choose_spec
      simp only [Option.some.injEq] at h
      rw [h] at this
      exact this
    · simp at h
  · intro h
    have hx : ∃ x : Nat × Agent T × Nat, Wants N n x.1 x.2.1 x.2.2 := ⟨(k, a, e), h⟩
    rw [dif_pos hx]
    obtain ⟨h1, h2, h3⟩ := hx.choose_spec.unique h
    rw [Option.some.injEq]
    exact Prod.ext h1 (Prod.ext h2 h3)

theorem wish_eq {N M : NetCfg T R} {n : Net T R} (h : ∀ k a e, Wants N n k a e ↔ Wants M n k a e) :
    wish N n = wish M n := by
  refine Option.ext fun ⟨k, a, e⟩ => ?_
  have := h k a e
  rw [← wish_iff, ← wish_iff] at this
  exact this

theorem destination_greedy {N : NetCfg T R} {n : Net T R} {k : Nat} {a : Agent T} (h : a.kind = .greedy) (ω ω' : ℕ → R) :
    n.destination (N.fed ω) k a = n.destination (N.fed ω') k a := by
  simp only [Net.destination, h]; rfl

theorem destination_plain {N : NetCfg T R} {n : Net T R} {k : Nat} {a : Agent T} (h : a.kind ≠ .greedy) :
    n.destination N k a = match agentDest (N.outEdges (N.qc k).edge.tgt) (n.probs (N.qc k).edge.tgt) (N.unif n.unifCalls) with
      | .error e => .error e
      | .ok e => .ok (e, if (N.outEdges (N.qc k).edge.tgt).length ≤ 1 then 0 else 1) := by
  unfold Net.destination
  cases hkind : a.kind with
  | greedy => exact absurd hkind h
  | plain => rfl
  | resource _ _ => rfl

theorem wish_fed (N : NetCfg T R) (n : Net T R) (ω : ℕ → R) :
    wish (N.fed ω) n = wish (N.fed fun _ => ω n.unifCalls) n := by
  refine wish_eq fun k a e => ?_
  unfold Wants
  rw [Turn.fed, Turn.fed, destination_fed]

theorem wish_unused {N : NetCfg T R} {n : Net T R} (h : ¬ Asks N n) (u u' : R) :
    wish (N.fed fun _ => u) n = wish (N.fed fun _ => u') n := by
  refine wish_eq fun k a e => ?_
  unfold Wants
  rw [Turn.fed, Turn.fed]
  refine and_congr_right fun ht => ?_
  by_cases hg : a.kind = .greedy
  · rw [destination_greedy hg]
  · rw [destination_plain hg, destination_plain hg]
    by_cases hlen : 2 ≤ (N.outEdges (N.qc k).edge.tgt).length
    · exact absurd ⟨k, a, ht, hg, hlen⟩ h
    · obtain ⟨r, hr⟩ := agentDest_single (N.outEdges (N.qc k).edge.tgt) (n.probs (N.qc k).edge.tgt) (by omega)
      simp only [NetCfg.fed, hr]
      exact Iff.rfl

/-- `wish` if no exception was raised. -/
noncomputable def wishOf (N : NetCfg T R) : Except DestErr (Net T R) → Option (Nat × Agent T × Nat)
  | .error _ => none
  | .ok n => wish N n

/-- What happened in the first `m` events: the state before each of them (or the exception raised), and who wanted to
go where. -/
noncomputable def story (N : NetCfg T R) (n : Net T R) (m : Nat) :
    List (Except DestErr (Net T R) × Option (Nat × Agent T × Nat)) :=
  (List.range m).map fun i => (n.simulate N i, wishOf N (n.simulate N i))

theorem steps_succ' (N : NetCfg T R) (m : Nat) (n : Net T R) : Net.steps N (m + 1) n =
    match Net.steps N m n with
    | .error e => .error e
    | .ok n' => n'.step N := by
  induction m generalizing n with
  | zero =>
    simp only [Net.steps]
    cases n.step N <;> rfl
  | succ m ih =>
    rw [Net.steps]
    cases h : n.step N with
    | error e => simp only [Net.steps, h]
    | ok n1 =>
      have h2 : Net.steps N (m + 1) n = Net.steps N m n1 := by simp only [Net.steps, h]
      simp only
      rw [ih n1, h2]

end Stream

theorem discrete_choiceLoop (pr : List ℝ) (m : Nat) : ∀ k z l, Discrete fun u => choiceLoop pr u m k z l := by
  induction m with
  | zero =>
    intro k z l
    cases l with
    | none => exact Discrete.const _
    | some k => exact Discrete.const _
  | succ m ih =>
    intro k z l
    simp only [choiceLoop]
    cases h : pr[k]? with
    | none => exact Discrete.const _
    | some p => exact Discrete.ite measurableSet_Iic (Discrete.const _) (ih _ _ _)

theorem discrete_choice (pr : List ℝ) (n : Nat) : Discrete fun u => choice pr u n := by
  unfold choice
  cases h : pr[0]? with
  | none => exact Discrete.const _
  | some p => exact Discrete.ite measurableSet_Iic (Discrete.const _) (discrete_choiceLoop _ _ _ _ _)

/-- What `agentDest` does with the result of `_choice`. -/
def pickEdge (out : List Nat) : Except MemErr Nat → Except DestErr Nat
  | .error e => .error (.mem e)
  | .ok k =>
    match out[k]? with
    | none => .error (.py .indexError)
    | some e => .ok e

theorem discrete_dest (out : List Nat) (pr : List ℝ) : Discrete fun u => agentDest out pr u := by
  by_cases h : out.length ≤ 1
  · obtain ⟨r, hr⟩ := agentDest_single out pr h
    simp only [hr]; exact Discrete.const r
  · have : (fun u => agentDest out pr u) = fun u => pickEdge out (choice pr u out.length) := by
      funext u
      unfold agentDest pickEdge
      rw [if_neg h]
      cases choice pr u out.length with
      | error e => rfl
      | ok k => cases hk : out[k]? with | none => simp only [hk] | some e => simp only [hk]
    rw [this]
    exact (discrete_choice pr out.length).comp (pickEdge out)

theorem discrete_step (N : NetCfg T ℝ) (n : Net T ℝ) : Discrete fun u => n.step (N.fed fun _ => u) := by
  rcases step_factor N n with ⟨r, hr⟩ | ⟨k, a, -, -, -, f, hf⟩
  · simp only [hr]; exact Discrete.const r
  · simp only [hf]; exact (discrete_dest _ _).comp f

theorem discrete_wish (N : NetCfg T ℝ) (n : Net T ℝ) : Discrete fun u => wish (N.fed fun _ => u) n := by
  by_cases h : ∃ k a, Turn N n k a
  · obtain ⟨k, a, ht⟩ := h
    have : (fun u => wish (N.fed fun _ => u) n) = fun u => match n.destination (N.fed fun _ => u) k a with
        | .error _ => none
        | .ok (e, _) => some (k, a, e) := by
      funext u
      refine Option.ext fun ⟨k', a', e'⟩ => ?_
      rw [wish_iff]
      constructor
      · rintro ⟨h1, d, h2⟩
        obtain ⟨rfl, rfl⟩ := ht.unique (Turn.fed.mp h1)
        rw [h2]
      · intro h
        cases hd : n.destination (N.fed fun _ => u) k a with
        | error x => rw [hd] at h; simp at h
        | ok x =>
          rw [hd] at h
          simp only [Option.some.injEq, Prod.mk.injEq] at h
          obtain ⟨rfl, rfl, rfl⟩ := h
          exact ⟨Turn.fed.mpr ht, x.2, hd⟩
    rw [this]
    have hdisc : Discrete fun u => n.destination (N.fed fun _ => u) k a := by
      by_cases hg : a.kind = .greedy
      · have : (fun u => n.destination (N.fed fun _ => u) k a) = fun u => n.destination (N.fed fun _ => 0) k a := by
          funext u; exact destination_greedy hg _ _
        rw [this]; exact Discrete.const _
      · have := (discrete_dest (N.outEdges (N.qc k).edge.tgt) (n.probs (N.qc k).edge.tgt)).comp
          fun r => match r with
            | Except.error e => Except.error e
            | .ok e => .ok (e, if (N.outEdges (N.qc k).edge.tgt).length ≤ 1 then 0 else 1)
        have h2 : (fun u => n.destination (N.fed fun _ => u) k a) = fun u =>
            match agentDest (N.outEdges (N.qc k).edge.tgt) (n.probs (N.qc k).edge.tgt) u with
            | .error e => .error e
            | .ok e => .ok (e, if (N.outEdges (N.qc k).edge.tgt).length ≤ 1 then 0 else 1) := by
          funext u; exact destination_plain hg
        rw [h2]
        exact this
    exact hdisc.comp fun r => match r with
      | .error _ => none
      | .ok (e, _) => some (k, a, e)
  · have : (fun u => wish (N.fed fun _ => u) n) = fun _ => none := by
      funext u
      refine Option.ext fun ⟨k, a, e⟩ => ?_
      rw [wish_iff]
      simp only [reduceCtorEq, iff_false]
      exact fun hw => h ⟨k, a, Turn.fed.mp hw.1⟩
    rw [this]; exact Discrete.const _

/-- The states of the machine: the number of draws used so far, the story so far and the state now. -/
abbrev Tale (T : Type*) [LinearOrder T] [OrderTop T] [Zero T] : Type _ :=
  ℕ × List (Except DestErr (Net T ℝ) × Option (Nat × Agent T × Nat)) × Except DestErr (Net T ℝ)

open Classical in
/-- The machine. -/
noncomputable def netMachine (N : NetCfg T ℝ) : Machine (Tale T) where
  step s u := match s.2.2 with
    | .ok n => (s.1 + (if Asks N n then 1 else 0), s.2.1 ++ [(.ok n, wish (N.fed fun _ => u) n)], n.step (N.fed fun _ => u))
    | .error e => (s.1, s.2.1 ++ [(.error e, none)], .error e)
  idx s := s.1

theorem netMachine_ok (N : NetCfg T ℝ) : (netMachine N).Ok where
  mono s u := by
    simp only [netMachine]
    split
    · simp only; omega
    · exact le_rfl
  same s u u' := by
    intro h
    simp only [netMachine] at h ⊢
    split at h
    · rename_i n hn
      simp only at h ⊢
      have : ¬ Asks N n := by intro hA; rw [if_pos hA] at h; omega
      rw [step_unused this u u', wish_unused this u u']
    · rfl
  disc s := by
    simp only [netMachine]
    cases s.2.2 with
    | error e => exact Discrete.const _
    | ok n => exact ((discrete_wish N n).prod (discrete_step N n)).comp fun r => (_, s.2.1 ++ [(.ok n, r.1)], r.2)

/-- The machine does what the network does. -/
theorem machine_run (N : NetCfg T ℝ) (n : Net T ℝ) (hi : n.initialized = true) (ω : ℕ → ℝ) (m : Nat) :
    ((netMachine N).run ω (n.unifCalls, [], .ok n) m).2 = (story (N.fed ω) n m, n.simulate (N.fed ω) m) ∧
    ∀ n', n.simulate (N.fed ω) m = .ok n' → ((netMachine N).run ω (n.unifCalls, [], .ok n) m).1 = n'.unifCalls := by
  have hsim : ∀ i, n.simulate (N.fed ω) i = Net.steps (N.fed ω) i n := fun i => by rw [Net.simulate, if_pos hi]
  induction m with
  | zero =>
    refine ⟨by simp [story, Machine.run, hsim, Net.steps], fun n' h => ?_⟩
    rw [hsim] at h
    simp only [Net.steps, Except.ok.injEq] at h
    rw [← h]; rfl
  | succ m ih =>
    obtain ⟨h1, h2⟩ := ih
    have htr : story (N.fed ω) n (m + 1) = story (N.fed ω) n m ++ [(n.simulate (N.fed ω) m,
        wishOf (N.fed ω) (n.simulate (N.fed ω) m))] := by
      simp only [story, List.range_succ (n := m), List.map_append, List.map_cons, List.map_nil]
    simp only [Machine.run]
    generalize hrun : (netMachine N).run ω (n.unifCalls, [], .ok n) m = s at *
    obtain ⟨c, s1, s2⟩ := s
    simp only [Prod.mk.injEq] at h1
    obtain ⟨rfl, rfl⟩ := h1
    rw [htr, hsim (m + 1), steps_succ', ← hsim]
    cases hm : n.simulate (N.fed ω) m with
    | error e =>
      simp [netMachine, wishOf]
    | ok n1 =>
      have hc := h2 n1 hm
      simp only at hc
      subst hc
      simp only [netMachine]
      rw [← step_fed, ← wish_fed]
      refine ⟨rfl, fun n' hn' => ?_⟩
      rw [step_calls hn']
      by_cases hA : Asks N n1
      · rw [if_pos hA, if_pos (Asks.fed.mpr hA)]
      · rw [if_neg hA, if_neg fun h => hA (Asks.fed.mp h)]

end Verif
