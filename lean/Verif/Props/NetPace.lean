import Verif.NetPace
import Verif.Props.NetDrain
import Mathlib.Algebra.Order.Floor.Semiring
import Mathlib.Algebra.Order.Archimedean.Basic
import Mathlib.Algebra.Order.AddGroupWithTop

/-!
# `simulate(t=d)` ends (C88)

Queue_network.py lines 1297-1300: `while self._t < now + t: self._simulate_next_event(slow=False)`. Here the network may
have cycles, and agents may block each other for ever.
-/

set_option linter.unusedSectionVars false
set_option linter.unusedVariables false

namespace Verif.NetSpec

variable {T R : Type*} [LinearOrder T] [OrderTop T] [Zero T] [LinearOrder R] [Add R]

/-- C88: let `φ t` bound how many services, interarrival times and retries of blocked agents in a row fit between `t`
and `u`. Then the loop that simulates until `u` ends. -/
theorem C88_until_ends {N : NetCfg T R} (hN : N.Ok) {u : T} {φ : T → Nat} (hp : Pace N u φ) {b : Nat → Bool} :
    ∀ {n : Net T R}, NetReach N b n → n.initialized = true → ∃ fuel, n.stepsUntil N u fuel ≠ none := by
  have main : ∀ v h (n : Net T R), netPot N u φ n.qs = v → n.heap.size = h → NetReach N b n → n.initialized = true →
      ∃ fuel, n.stepsUntil N u fuel ≠ none := by
    intro v
    induction v using Nat.strong_induction_on with
    | _ v ihv =>
      intro h
      induction h using Nat.strong_induction_on with
      | _ h ihh =>
        intro n hv hh hr hin
        by_cases ht : n.t < u
        swap
        · exact ⟨0, by simp [Net.stepsUntil, ht]⟩
        rcases step_spec hN (hr.inv hN) hin with ⟨n', g1, g2, -⟩ | ⟨g1, -⟩
        · have hr1 : n.simulate N 1 = .ok n' := by rw [simulate_one, if_pos hin, g1]
          have hr' := hr.step .step trivial hr1
          have hin' : n'.initialized = true := by rw [g2.flags.1, hin]
          have next : (∃ fuel, n'.stepsUntil N u fuel ≠ none) → ∃ fuel, n.stepsUntil N u fuel ≠ none := by
            rintro ⟨fuel, hf⟩
            exact ⟨fuel + 1, by rw [Net.stepsUntil, if_pos ht, g1]; exact hf⟩
          refine next ?_
          rcases g2.pace hN hp (hr.inv hN) with q | q | ⟨q1, q2⟩
          · exact ⟨0, by simp [Net.stepsUntil, not_lt.mpr q]⟩
          · exact ihv _ (hv ▸ q) _ n' rfl rfl hr' hin'
          · exact ihh _ (hh ▸ q2) n' (by rw [q1, hv]) rfl hr' hin'
        · exact ⟨1, by rw [Net.stepsUntil, if_pos ht, g1]; simp⟩
  exact fun {n} hr hin => main _ _ n rfl rfl hr hin

/-- C88: so `simulate(t=d)` ends, and, unless it raises, the clock has got to the end of the period. -/
theorem C88_simulate_ends [Add T] {N : NetCfg T R} (hN : N.Ok) (hF : N.NoInf) {b : Nat → Bool} {n : Net T R} (d : T)
    {φ : T → Nat} (hp : Pace N (n.t + d) φ) (hr : NetReach N b n) (hin : n.initialized = true) :
    ∃ fuel n', n.simulateT N d fuel = some (.ok n') ∧ n.t + d ≤ n'.t := by
  obtain ⟨fuel, hf⟩ := C88_until_ends hN hp hr hin
  have hs : n.simulateT N d fuel = n.stepsUntil N (n.t + d) fuel := by rw [Net.simulateT, if_pos hin]
  rw [← hs] at hf
  cases hc : n.simulateT N d fuel with
  | none => exact absurd hc hf
  | some r =>
    cases r with
    | error e => exact absurd hc (C41_never_crashes_until hN hF hr hin d fuel e)
    | ok n' =>
      refine ⟨fuel, n', hc, ?_⟩
      rw [hs] at hc
      generalize n.t + d = u at hc
      clear hp hr hin hs hf
      induction fuel generalizing n with
      | zero =>
        unfold Net.stepsUntil at hc
        split at hc
        · simp at hc
        · rename_i h; simp only [Option.some.injEq, Except.ok.injEq] at hc; rw [← hc]; exact not_lt.mp h
      | succ fuel ih =>
        unfold Net.stepsUntil at hc
        split at hc
        · split at hc
          · simp at hc
          · exact ih hc
        · rename_i h; simp only [Option.some.injEq, Except.ok.injEq] at hc; rw [← hc]; exact not_lt.mp h

/-- How many times `δ` fits between `t` and `u`. -/
theorem pace_key {K : Type*} [Field K] [LinearOrder K] [IsStrictOrderedRing K] [FloorSemiring K] {δ : K} (hδ : 0 < δ)
    (u : K) (s t : WithTop K) (h1 : t + (δ : WithTop K) ≤ s) (h2 : s < (u : WithTop K)) :
    ⌈(u - s.untopD u) / δ⌉₊ < ⌈(u - t.untopD u) / δ⌉₊ := by
  have hs : s ≠ ⊤ := h2.ne_top
  lift s to K using hs
  have ht : t ≠ ⊤ := by rintro rfl; simp at h1
  lift t to K using ht
  have h1' : t + δ ≤ s := by exact_mod_cast h1
  have h2' : s < u := by exact_mod_cast h2
  simp only [WithTop.untopD_coe]
  have h3 : (u - s) / δ + 1 ≤ (u - t) / δ := by
    rw [div_add_one hδ.ne', div_le_div_iff_of_pos_right hδ]
    linarith
  have h4 : 0 ≤ (u - s) / δ := div_nonneg (by linarith) hδ.le
  calc ⌈(u - s) / δ⌉₊ < ⌈(u - s) / δ⌉₊ + 1 := Nat.lt_succ_self _
    _ = ⌈(u - s) / δ + 1⌉₊ := (Nat.ceil_add_one h4).symm
    _ ≤ ⌈(u - t) / δ⌉₊ := Nat.ceil_le_ceil h3

theorem pace_anti {K : Type*} [Field K] [LinearOrder K] [IsStrictOrderedRing K] [FloorSemiring K] {δ : K} (hδ : 0 < δ)
    (u : K) (s t : WithTop K) (hst : s ≤ t) (ht : t < (u : WithTop K)) :
    ⌈(u - t.untopD u) / δ⌉₊ ≤ ⌈(u - s.untopD u) / δ⌉₊ := by
  have ht' : t ≠ ⊤ := ht.ne_top
  lift t to K using ht'
  have hs' : s ≠ ⊤ := (hst.trans_lt ht).ne_top
  lift s to K using hs'
  simp only [WithTop.untopD_coe]
  refine Nat.ceil_le_ceil (div_le_div_of_nonneg_right ?_ hδ.le)
  have : s ≤ t := by exact_mod_cast hst
  linarith

/-- C88 in numbers: if, in exact arithmetic, services, interarrival times and retries take at least `δ > 0`, then
`simulate(t=d)` ends for every `d`. -/
theorem C88_pace_of_step {K : Type*} [Field K] [LinearOrder K] [IsStrictOrderedRing K] [FloorSemiring K]
    {N : NetCfg (WithTop K) R} {δ : K} (hδ : 0 < δ)
    (hsvc : ∀ k < N.nE, Simple (N.qc k) → ∀ i t, t + (δ : WithTop K) ≤ (N.qc k).serviceF i t)
    (harr : ∀ k < N.nE, Simple (N.qc k) → ∀ i t, t + (δ : WithTop K) ≤ (N.qc k).arrivalF i t)
    (hjit : ∀ i t, t + (δ : WithTop K) ≤ N.jit i t) (u : K) :
    Pace N (u : WithTop K) (fun t => ⌈(u - t.untopD u) / δ⌉₊) := by
  exact ⟨pace_anti hδ u, fun k hk hs i t h => pace_key hδ u _ _ (hsvc k hk hs i t) h,
    fun k hk hs i t h => pace_key hδ u _ _ (harr k hk hs i t) h, fun i t h => pace_key hδ u _ _ (hjit i t) h⟩

/-! ## Examples -/

/-- Two LossQueues that lead to each other, each with room for one agent. -/
def ringNet : NetCfg ℕ∞ Nat where
  nE := 2
  qc k := match k with
    | 0 => demoQ .loss 0 1 0 1 4 3 (.fin 0)
    | _ => demoQ .loss 1 0 k 1 5 3 (.fin 0)
  outEdges v := match v with
    | 0 => [0]
    | _ => [1]
  maxAgents := .inf
  unif i := i % 3
  jit _ t := t + 1
  garbage _ _ := (0, 0)

theorem ringNet_cases {k : Nat} (hk : k < ringNet.nE) : k = 0 ∨ k = 1 := by
  have : k < 2 := hk
  omega

theorem ringNet_ok : ringNet.Ok where
  idx := by decide
  kinds := by unfold Simple; decide
  fwd := by
    intro k hk
    refine ⟨fun n t => ?_, fun n t => ?_⟩ <;> rcases ringNet_cases hk with rfl | rfl <;> exact le_self_add
  out := by unfold Simple; decide
  outLt := by unfold Simple; decide
  jit := fun _ _ => le_self_add

theorem ringNet_noInf : ringNet.NoInf := .inr (by unfold NetCfg.NoLoop Simple; decide)

theorem pace_step {u : ℕ∞} (hu : u < ⊤) (d : ℕ) (hd : 1 ≤ d) (t : ℕ∞) (h : t + d < u) :
    (u - (t + d)).toNat < (u - t).toNat := by
  lift u to ℕ using hu.ne
  have ht : t ≠ ⊤ := by rintro rfl; simp at h
  lift t to ℕ using ht
  rw [← Nat.cast_add, ← ENat.natCast_sub, ← ENat.natCast_sub, ENat.toNat_natCast, ENat.toNat_natCast]
  have : t + d < u := by exact_mod_cast h
  omega

theorem ringNet_pace {u : ℕ∞} (hu : u < ⊤) : Pace ringNet u (fun t => (u - t).toNat) where
  anti := fun s t hst ht => ENat.toNat_le_toNat (tsub_le_tsub_left hst u) ((tsub_le_self.trans_lt hu).ne)
  svc := by
    intro k hk _ i t h
    rcases ringNet_cases hk with rfl | rfl <;> exact pace_step hu 3 (by omega) t h
  arr := by
    intro k hk _ i t h
    rcases ringNet_cases hk with rfl | rfl
    · exact pace_step hu 4 (by omega) t h
    · exact pace_step hu 5 (by omega) t h
  jit := fun i t h => pace_step hu 1 (by omega) t h

def ringRun (m : Nat) : List (NetOp Nat) :=
  .initialise (fun l _ => l) (.queues [0, 1]) :: List.replicate m .step
abbrev ringAt (m : Nat) : Net ℕ∞ Nat := resNet ringNet (fun _ => true) true zeroProbs (ringRun m)

theorem ringAt_reach (m : Nat) : NetReach ringNet (fun _ => true) (ringAt m) :=
  reachNet _ _ _ _ _ (by
    intro v
    match v with
    | 0 => rfl
    | _ + 1 => rfl)

/-- From time 7 on the two queues block each other: nobody moves any more, but the clock gets on. -/
example : (ringAt 4).t = 8 ∧ ((ringAt 4).qs 0).numBlocked = 1 ∧ ((ringAt 4).qs 1).numBlocked = 1 ∧
    (∃ fuel n', (ringAt 4).simulateT ringNet 100 fuel = some (.ok n') ∧ (ringAt 4).t + 100 ≤ n'.t) ∧
    ((ringAt 24).qs 0).numBlocked = 11 ∧ ((ringAt 24).qs 0).numDepartures = 0 ∧ ((ringAt 24).qs 1).numDepartures = 0 := by
  have ht : (ringAt 4).t = 8 := by decide +kernel
  refine ⟨ht, by decide +kernel, by decide +kernel, ?_, by decide +kernel⟩
  refine C88_simulate_ends ringNet_ok ringNet_noInf 100 (ringNet_pace (u := (ringAt 4).t + 100) ?_) (ringAt_reach 4)
    (by decide +kernel)
  rw [ht]
  exact WithTop.coe_lt_top (8 + 100 : ℕ)

/-- A pace in numbers: the demonstration queues with times in `ℚ`. -/
example : ∃ N : NetCfg (WithTop ℚ) Nat, N.nE = 1 ∧ Simple (N.qc 0) ∧ ∀ u : ℚ, ∃ φ, Pace N u φ := by
  let N : NetCfg (WithTop ℚ) Nat := {
    nE := 1
    qc := fun _ => { kind := .server, edge := ⟨0, 0, 0, 1⟩, servers := .fin 1, arrivalF := fun i t => t + (1 / (2 : ℚ) : ℚ),
                     serviceF := fun i t => t + (1 / (3 : ℚ) : ℚ), factory := .plain, activeCap := .inf, deactiveT := ⊤,
                     buffer := .inf, maxServers := .inf }
    outEdges := fun _ => [0], maxAgents := .inf, unif := fun _ => 0, jit := fun _ t => t + (1 / (4 : ℚ) : ℚ)
    garbage := fun _ _ => (0, 0) }
  refine ⟨N, rfl, .inl rfl, fun u => ⟨_, C88_pace_of_step (δ := 1 / 4) (by norm_num) ?_ ?_ ?_ u⟩⟩
  · intro k _ _ i t
    exact add_le_add_right (WithTop.coe_le_coe.mpr (by norm_num)) t
  · intro k _ _ i t
    exact add_le_add_right (WithTop.coe_le_coe.mpr (by norm_num)) t
  · intro i t
    exact le_rfl

/-- C88 needs that services take time: `simulate(t=6)` never ends in the network of `C87_rs_zero_service_stuck`. -/
theorem C88_rs_zero_service_endless : (zeroAt 3).t = 4 ∧ ∀ fuel, (zeroAt 3).simulateT zeroNet 6 fuel = none := by
  have hreach : NetReach zeroNet (fun _ => true) (zeroAt 3) := C87_rs_zero_service_stuck.2.2.2.2.1
  have ht : (zeroAt 3).t = 4 := by decide +kernel
  have hin : (zeroAt 3).initialized = true := by decide +kernel
  refine ⟨ht, fun fuel => ?_⟩
  rw [Net.simulateT, if_pos hin, ht]
  have hmain : ∀ fuel n, NetReach zeroNet (fun _ => true) n → n.initialized = true → Stuck n →
      n.stepsUntil zeroNet (4 + 6) fuel = none := by
    intro fuel
    induction fuel with
    | zero =>
      intro n h _ hs
      have := (h.inv zeroNet_ok).tau 0 (by decide)
      rw [hs.t0] at this
      rw [Net.stepsUntil, if_pos (this.trans_lt (by decide))]
    | succ fuel ih =>
      intro n h hin hs
      have := (h.inv zeroNet_ok).tau 0 (by decide)
      rw [hs.t0] at this
      obtain ⟨n1, g1, g2, g3⟩ := C41_never_crashes zeroNet_ok (.inl zeroNet_fin) h hin 1
      have h1 := ih n1 g2 g3 (hs.step h g1)
      rw [simulate_one, if_pos hin] at g1
      rw [Net.stepsUntil, if_pos (this.trans_lt (by decide)), g1]
      exact h1
  exact hmain fuel _ hreach hin (by constructor <;> decide +kernel)

end Verif.NetSpec
