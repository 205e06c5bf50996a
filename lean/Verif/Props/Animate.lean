import Verif.Animate
import Verif.Props.NetColour
import Verif.Props.AnyPace

/-!
# Property C120: `animate(t=d)`
-/

namespace Verif.ColourSpec

open QueueSpec NetSpec

variable {K : Type*} [Field K] [LinearOrder K]
variable {T R : Type*} [LinearOrder T] [OrderTop T] [Zero T] [LinearOrder R] [Add R]
variable {C : ColCfg K} {N : NetCfg T R} {lim : T} {n n' : Net T R} {g g' : GCol K}

/-- The frames are the first `j` events; the clock was not past `lim` before each, and is past it if there were more frames. -/
theorem frames_events {m : ℕ} (h : n.frames C N lim m g = .ok (n', g')) :
    ∃ j ≤ m, n.steps N j = .ok n' ∧ n.slowSteps C N j g = .ok (n', g') ∧
      (∀ i < j, ∀ x, n.steps N i = .ok x → x.t ≤ lim) ∧ (j < m → lim < n'.t) := by
  induction m generalizing n g with
  | zero =>
    simp only [Net.frames, Except.ok.injEq, Prod.mk.injEq] at h
    obtain ⟨rfl, rfl⟩ := h
    exact ⟨0, le_rfl, rfl, rfl, fun i hi => by omega, fun hi => by omega⟩
  | succ m ih =>
    rw [Net.frames] at h
    by_cases ht : lim < n.t
    · rw [Net.frame, if_pos ht] at h
      simp only at h
      obtain ⟨j, h1, h2, h3, h4, h5⟩ := ih h
      have hj : j = 0 := by
        by_contra hj
        exact absurd (h4 0 (by omega) n rfl) (not_le.mpr ht)
      subst hj
      simp only [Net.steps, Except.ok.injEq] at h2
      subst h2
      exact ⟨0, by omega, rfl, h3, fun i hi => by omega, fun _ => ht⟩
    · rw [Net.frame, if_neg ht] at h
      cases hx : n.slowStep C N g with
      | error e => rw [hx] at h; simp at h
      | ok p =>
        obtain ⟨n1, g1⟩ := p
        rw [hx] at h
        simp only at h
        obtain ⟨j, h1, h2, h3, h4, h5⟩ := ih h
        have hs := (C81_same_event C n g).1 n1 g1 hx
        refine ⟨j + 1, by omega, by rw [Net.steps, hs]; exact h2, by rw [Net.slowSteps, hx]; exact h3, ?_, fun hj => h5 (by omega)⟩
        intro i hi x hxx
        cases i with
        | zero =>
          simp only [Net.steps, Except.ok.injEq] at hxx
          subst hxx
          exact not_lt.mp ht
        | succ i =>
          rw [Net.steps, hs] at hxx
          exact h4 i (by omega) x hxx

/-- The frames never raise if the events, drawn, never do. -/
theorem frames_ok (h : ∀ j, ∃ n' g', n.slowSteps C N j g = .ok (n', g')) (m : ℕ) :
    ∃ n' g', n.frames C N lim m g = .ok (n', g') := by
  induction m generalizing n g with
  | zero => exact ⟨n, g, rfl⟩
  | succ m ih =>
    rw [Net.frames]
    by_cases ht : lim < n.t
    · rw [Net.frame, if_pos ht]
      exact ih h
    · rw [Net.frame, if_neg ht]
      cases hx : n.slowStep C N g with
      | error e =>
        obtain ⟨n', g', h1⟩ := h 1
        rw [Net.slowSteps, hx] at h1
        simp at h1
      | ok p =>
        refine ih fun j => ?_
        obtain ⟨n', g', h1⟩ := h (j + 1)
        rw [Net.slowSteps, hx] at h1
        exact ⟨n', g', h1⟩

theorem animate_frames [Add T] {d : Option T} {m : ℕ} (h : n.animate C N d m g = .ok (n', g')) :
    n.initialized = true ∧ ∃ g1, updateAll C N n.qs g = .ok g1 ∧
      n.frames C N (Net.lastTime n.t d) m g1 = .ok (n', g') := by
  unfold Net.animate at h
  by_cases hi : n.initialized = true
  · rw [if_pos hi] at h
    refine ⟨hi, ?_⟩
    cases hx : updateAll C N n.qs g with
    | error e => rw [hx] at h; simp at h
    | ok g1 => rw [hx] at h; exact ⟨g1, rfl, h⟩
  · rw [if_neg hi] at h; simp at h

/-- C120: `animate()` with `m` frames leaves the network as `simulate(n=m)` does. -/
theorem C120_one_event_per_frame [Add T] {m : ℕ} (h : n.animate C N none m g = .ok (n', g')) :
    n.simulate N m = .ok n' := by
  obtain ⟨hi, g1, -, h2⟩ := animate_frames h
  obtain ⟨j, h3, h4, -, -, h5⟩ := frames_events h2
  have : j = m := by
    by_contra hj
    exact absurd (h5 (by omega)) (not_lt.mpr le_top)
  subst this
  rw [Net.simulate, if_pos hi]
  exact h4

/-- C120: `animate(t=d)` with `m` frames performs `j` events, `j ≤ m`: one in each frame as long as the clock is not past
`now + d`, and none after that. -/
theorem C120_events [Add T] {d : T} {m : ℕ} (h : n.animate C N (some d) m g = .ok (n', g')) :
    ∃ j ≤ m, n.simulate N j = .ok n' ∧ (∀ i < j, ∀ x, n.simulate N i = .ok x → x.t ≤ n.t + d) ∧
      (j < m → n.t + d < n'.t) := by
  obtain ⟨hi, g1, -, h2⟩ := animate_frames h
  obtain ⟨j, h3, h4, -, h5, h6⟩ := frames_events h2
  have e : ∀ i, n.simulate N i = n.steps N i := fun i => by rw [Net.simulate, if_pos hi]
  exact ⟨j, h3, by rw [e]; exact h4, fun i hi x hx => h5 i hi x (by rw [← e]; exact hx), h6⟩

theorem until_events {fuel : ℕ} {u : T} (h : n.stepsUntil N u fuel = some (.ok n')) :
    ∃ j, n.steps N j = .ok n' ∧ (∀ i < j, ∀ x, n.steps N i = .ok x → x.t < u) ∧ u ≤ n'.t := by
  induction fuel generalizing n with
  | zero =>
    unfold Net.stepsUntil at h
    split at h
    · simp at h
    · next ht =>
      simp only [Option.some.injEq, Except.ok.injEq] at h
      subst h
      exact ⟨0, rfl, fun i hi => by omega, not_lt.mp ht⟩
  | succ fuel ih =>
    unfold Net.stepsUntil at h
    split at h
    · next ht =>
      split at h
      · simp at h
      · next n1 h1 =>
        obtain ⟨j, h2, h3, h4⟩ := ih h
        refine ⟨j + 1, by rw [Net.steps, h1]; exact h2, ?_, h4⟩
        intro i hi x hx
        cases i with
        | zero =>
          simp only [Net.steps, Except.ok.injEq] at hx
          subst hx
          exact ht
        | succ i =>
          rw [Net.steps, h1] at hx
          exact h3 i (by omega) x hx
    · next ht =>
      simp only [Option.some.injEq, Except.ok.injEq] at h
      subst h
      exact ⟨0, rfl, fun i hi => by omega, not_lt.mp ht⟩

/-- C120: `animate(t=d)` goes further than `simulate(t=d)`: an animation that has come to its end went through the state in
which `simulate(t=d)` ends, and if the clock was `now + d` there, it went on until the first event after `now + d`. -/
theorem C120_beyond_simulate [Add T] {d : T} {m fuel : ℕ} {n1 : Net T R} (hs : n.simulateT N d fuel = some (.ok n1))
    (h : n.animate C N (some d) m g = .ok (n', g')) (hend : n.t + d < n'.t) :
    ∃ j i, n.simulate N j = .ok n1 ∧ n.simulate N (j + i) = .ok n' ∧ (i = 0 ↔ n.t + d < n1.t) := by
  obtain ⟨hi, g1, -, h2⟩ := animate_frames h
  obtain ⟨j, h3, h4, -, h5, h6⟩ := frames_events h2
  rw [Net.simulateT, if_pos hi] at hs
  obtain ⟨j1, g2, g3, g4⟩ := until_events hs
  have e : ∀ i, n.simulate N i = n.steps N i := fun i => by rw [Net.simulate, if_pos hi]
  have hj : j1 ≤ j := by
    by_contra hlt
    have := g3 j (by omega) n' h4
    exact absurd this (not_lt.mpr hend.le)
  obtain ⟨i, rfl⟩ := Nat.exists_eq_add_of_le hj
  refine ⟨j1, i, by rw [e]; exact g2, by rw [e]; exact h4, ?_⟩
  constructor
  · rintro rfl
    rw [Nat.add_zero, g2, Except.ok.injEq] at h4
    rw [h4]; exact hend
  · intro hlt
    by_contra hne
    exact absurd (h5 j1 (by omega) n1 g2) (not_le.mpr hlt)

/-- C120: in a network of queues of any class that was initialised, the frames never raise, and after each
the colours are up to date as in C81. -/
theorem C120_shows [IsStrictOrderedRing K] (W : Wired C N) (hN : N.OkA) (hF : N.NoLoopA ∨ N.Ok ∧ N.NoInf) (hz : NullIsZero N) (hP : Paints C N)
    {b : Nat → Bool} (h : NetReach N b n) (hi : n.initialized = true) (hs : Staffed N n.qs) (hc : Current C N n.qs g)
    (hp : ∀ p, g.prev = some p → p < N.nE) (m : ℕ) :
    ∃ n' g', n.frames C N lim m g = .ok (n', g') ∧ Current C N n'.qs g' := by
  obtain ⟨n', g', h1⟩ := frames_ok (lim := lim) (fun j => by
    obtain ⟨n', g', h1, -⟩ := C81_animation_partial W hN hF hz hP j h hi hs hc hp
    exact ⟨n', g', h1⟩) m
  obtain ⟨j, -, -, h2, -⟩ := frames_events h1
  obtain ⟨n2, g2, h3, -, h4⟩ := C81_animation_partial W hN hF hz hP j h hi hs hc hp
  rw [h2] at h3
  simp only [Except.ok.injEq, Prod.mk.injEq] at h3
  obtain ⟨rfl, rfl⟩ := h3
  exact ⟨n', g', h1, h4⟩

/-- C120: if only finitely many services, interarrival times and retries in a row fit before some time after `now + d`, the
animation comes to rest: from some frame on nothing changes. -/
theorem C120_rests (hN : N.OkA) (hF : N.NoLoopA ∨ N.Ok ∧ N.NoInf) {u : T} {φ : T → ℕ} (hpace : PaceA N u φ) (hu : lim < u) {b : Nat → Bool}
    (h : NetReach N b n) (hi : n.initialized = true) (hok : ∀ m, ∃ n' g', n.frames C N lim m g = .ok (n', g')) :
    ∃ k n' g', lim < n'.t ∧ ∀ m, k ≤ m → n.frames C N lim m g = .ok (n', g') := by
  obtain ⟨fuel, hf⟩ := C114_until_ends hN hpace h hi
  cases hx : n.stepsUntil N u fuel with
  | none => exact absurd hx hf
  | some r =>
    cases r with
    | error e =>
      exfalso
      have : ∀ fuel (n : Net T R), n.stepsUntil N u fuel = some (.error e) → ∃ j, n.steps N j = .error e := by
        intro fuel
        induction fuel with
        | zero => intro n h; unfold Net.stepsUntil at h; split at h <;> simp at h
        | succ fuel ih =>
          intro n h
          unfold Net.stepsUntil at h
          split at h
          · split at h
            · next e' h1 =>
              simp only [Option.some.injEq, Except.error.injEq] at h
              exact ⟨1, by rw [Net.steps, h1, h]⟩
            · next n1 h1 =>
              obtain ⟨j, hj⟩ := ih n1 h
              exact ⟨j + 1, by rw [Net.steps, h1]; exact hj⟩
          · simp at h
      obtain ⟨j, hj⟩ := this fuel n hx
      obtain ⟨n', h1⟩ := steps_ok_any hN hF h hi j
      rw [h1] at hj; simp at hj
    | ok n2 =>
      obtain ⟨J, g1, g2, g3⟩ := until_events hx
      have key : ∀ m, J < m → ∀ n' g', n.frames C N lim m g = .ok (n', g') → lim < n'.t := by
        intro m hm n' g' h1
        obtain ⟨j, h2, h3, -, h4, h5⟩ := frames_events h1
        by_cases hj : j < m
        · exact h5 hj
        · exact absurd (h4 J (by omega) n2 g1) (not_le.mpr (hu.trans_le g3))
      have more : ∀ m (n n' : Net T R) (g g' : GCol K), n.frames C N lim m g = .ok (n', g') → lim < n'.t →
          n.frames C N lim (m + 1) g = .ok (n', g') := by
        intro m
        induction m with
        | zero =>
          intro n n' g g' h ht
          simp only [Net.frames, Except.ok.injEq, Prod.mk.injEq] at h
          obtain ⟨rfl, rfl⟩ := h
          rw [Net.frames, Net.frame, if_pos ht]
          rfl
        | succ m ih =>
          intro n n' g g' h ht
          rw [Net.frames] at h ⊢
          cases hx : n.frame C N lim g with
          | error e => rw [hx] at h; simp at h
          | ok p => rw [hx] at h; exact ih p.1 n' p.2 g' h ht
      obtain ⟨n', g', h1⟩ := hok (J + 1)
      have ht := key (J + 1) (by omega) n' g' h1
      refine ⟨J + 1, n', g', ht, fun m hm => ?_⟩
      obtain ⟨i, rfl⟩ := Nat.exists_eq_add_of_le hm
      induction i with
      | zero => exact h1
      | succ i ih => exact more _ _ _ _ _ (ih (by omega)) ht

theorem demoNet_pace {u : ℕ∞} (hu : u < ⊤) : PaceA demoNet u (fun t => (u - t).toNat) where
  anti := fun s t hst ht => ENat.toNat_le_toNat (tsub_le_tsub_left hst u) ((tsub_le_self.trans_lt hu).ne)
  svc := by
    intro k hk _ i t h
    have : k = 0 ∨ k = 1 ∨ k = 2 ∨ k = 3 ∨ k = 4 := by
      have : k < 5 := hk
      omega
    rcases this with rfl | rfl | rfl | rfl | rfl
    · exact pace_step hu 1 (by omega) t h
    · exact pace_step hu 7 (by omega) t h
    · exact pace_step hu 2 (by omega) t h
    · exact pace_step hu 1 (by omega) t h
    · exact pace_step hu 1 (by omega) t h
  arr := by
    intro k hk _ i t h
    have : k = 0 ∨ k = 1 ∨ k = 2 ∨ k = 3 ∨ k = 4 := by
      have : k < 5 := hk
      omega
    rcases this with rfl | rfl | rfl | rfl | rfl
    · exact pace_step hu 2 (by omega) t h
    · exact pace_step hu 5 (by omega) t h
    · exact pace_step hu 5 (by omega) t h
    · exact pace_step hu 1 (by omega) t h
    · exact pace_step hu 1 (by omega) t h
  jit := fun i t h => pace_step hu 1 (by omega) t h

/-- `animate(t=5)` performs six events, until the clock is at 6; `simulate(t=5)` four, until it is at 5. -/
example : (((demoAt 0).animate demoCol demoNet (some 5) 10 blank).toOption.map fun p => (p.1.t, p.1.numEvents)) = some (6, 6) ∧
    (((demoAt 0).simulateT demoNet 5 20).bind fun r => r.toOption.map fun n => (n.t, n.numEvents)) = some (5, 4) := by
  decide +kernel

/-- The hypotheses of `C120_shows` and `C120_rests` are met by `demoNet`: an animation until time 5 comes to rest, with up-to-date
colours. -/
example : ∃ k n' g', 5 < n'.t ∧ Current demoCol demoNet n'.qs g' ∧
    ∀ m, k ≤ m → (demoAt 0).frames demoCol demoNet 5 m (painted demoCol demoNet (demoAt 0).qs blank) = .ok (n', g') := by
  have hs : Staffed demoNet (demoAt 0).qs := by
    have h1 : ∀ k < demoNet.nE, ((demoAt 0).qs k).numServers = .fin 1 := by decide +kernel
    intro k hk m hm
    rw [h1 k hk] at hm; cases hm; decide
  obtain ⟨g', hg⟩ := C80_never_raises demoCol_wired demoCol_paints hs blank
  have hp : painted demoCol demoNet (demoAt 0).qs blank = g' := by unfold painted; rw [hg]
  have hc : Current demoCol demoNet (demoAt 0).qs g' := by
    refine (C80_current_partial demoCol_wired (fun v k hk _ => ?_) hg).1
    match v, hk with
    | 2, h => cases h; exact ⟨1, by decide, .inr rfl⟩
    | 3, h => cases h; exact ⟨2, by decide, .inr rfl⟩
  have hprev : (painted demoCol demoNet (demoAt 0).qs blank).prev = none := by decide +kernel
  rw [hp] at hprev ⊢
  have hi : (demoAt 0).initialized = true := by decide +kernel
  have hA := fun m => C120_shows (lim := 5) demoCol_wired demoNet_ok.okA (.inr ⟨demoNet_ok, demoNet_noInf⟩) demoNet_typed demoCol_paints
    (demoAt_reach 0) hi hs hc (fun p h => by rw [hprev] at h; cases h) m
  obtain ⟨k, n', g1, h1, h2⟩ := C120_rests (lim := 5) (u := 6) demoNet_ok.okA (.inr ⟨demoNet_ok, demoNet_noInf⟩) (demoNet_pace (by decide)) (by decide) (demoAt_reach 0) hi
    (fun m => by obtain ⟨n', g', h, -⟩ := hA m; exact ⟨n', g', h⟩)
  obtain ⟨n2, g2, h3, h4⟩ := hA k
  rw [h2 k le_rfl] at h3
  cases h3
  exact ⟨k, n', g1, h1, h4, h2⟩

end Verif.ColourSpec
