import Verif.NetDrain

/-!
# The clock of a network gets on (specification and proof support)

A potential, for a horizon `u`, that every event before `u` lowers.
-/

set_option linter.unusedSectionVars false
set_option linter.unusedSimpArgs false
set_option linter.unusedVariables false

namespace Verif

variable {T R : Type*} [LinearOrder T] [OrderTop T] [Zero T] [LinearOrder R] [Add R]

/-- `φ t` bounds how many services, interarrival times and retries in a row fit between `t` and the horizon `u`. -/
structure Pace (N : NetCfg T R) (u : T) (φ : T → Nat) : Prop where
  anti : ∀ s t, s ≤ t → t < u → φ t ≤ φ s
  svc : ∀ k < N.nE, Simple (N.qc k) → ∀ i t, (N.qc k).serviceF i t < u → φ ((N.qc k).serviceF i t) < φ t
  arr : ∀ k < N.nE, Simple (N.qc k) → ∀ i t, (N.qc k).arrivalF i t < u → φ ((N.qc k).arrivalF i t) < φ t
  jit : ∀ i t, N.jit i t < u → φ (N.jit i t) < φ t

/-- The same for one queue. -/
structure PaceQ (c : QCfg T) (u : T) (φ : T → Nat) : Prop where
  anti : ∀ s t, s ≤ t → t < u → φ t ≤ φ s
  svc : ∀ i t, c.serviceF i t < u → φ (c.serviceF i t) < φ t
  arr : ∀ i t, c.arrivalF i t < u → φ (c.arrivalF i t) < φ t

/-- Weight, for the time until `u`, of what happens at `t`. -/
def till (u : T) (φ : T → Nat) (j : Nat) (t : T) : Nat := if t < u then 3 * φ t + j else 0

def stream (u : T) (φ : T → Nat) (s : QS T) : Nat :=
  if s.active then (if s.nextCt < u then 3 * (φ s.nextCt + 1) ^ 2 else 0) else 0

def load (u : T) (φ : T → Nat) (j : Nat) (l : List (Slot T)) : Nat := ((agents l).map fun a => till u φ j a.time).sum

/-- The potential of a queue. -/
def pot (u : T) (φ : T → Nat) (s : QS T) : Nat :=
  load u φ 2 s.arrivals + s.queue.length * till u φ 1 s.currentT + load u φ 3 s.departures + stream u φ s

variable {c : QCfg T} {u : T} {φ : T → Nat}

theorem till_lt {j : Nat} {t : T} (h : t < u) : till u φ j t = 3 * φ t + j := if_pos h

theorem PaceQ.till (h : PaceQ c u φ) (j : Nat) {s t : T} (hst : s ≤ t) (ht : t < u) : till u φ j t ≤ till u φ j s := by
  rw [till_lt ht, till_lt (hst.trans_lt ht)]
  have := h.anti s t hst ht
  omega

theorem PaceQ.start (h : PaceQ c u φ) (i : Nat) {t : T} (ht : t < u) : Verif.till u φ 3 (c.serviceF i t) ≤ 3 * φ t := by
  unfold Verif.till
  split
  · rename_i hlt
    have := h.svc i t hlt
    omega
  · omega

theorem load_perm {j : Nat} {l : List (Slot T)} {m : List (Agent T)} (h : (agents l).Perm m) :
    load u φ j l = (m.map fun a => till u φ j a.time).sum := (h.map _).sum_eq

theorem ExtSpec.pace (h : PaceQ c u φ) {s s' : QS T} {t : T} {rest : List (Slot T)} (he : ExtSpec c s s' t rest)
    (ht : t < u) : load u φ 2 s'.arrivals + stream u φ s' ≤ load u φ 2 rest + stream u φ s := by
  obtain ⟨ext, h1, h2, -, -⟩ := he.ext
  rw [load_perm h2, List.map_append, List.sum_append]
  show _ + load u φ 2 rest + _ ≤ _
  unfold stream
  generalize s'.nextCt = ν at h1
  generalize s'.active = act at h1
  generalize s'.arrCalls = calls at h1
  cases h1 with
  | inactive hs => simp [hs]
  | early hs => simp [hs]
  | off hs => simp
  | new hs hle hlt =>
    have hν : s.nextCt < u := hle.trans_lt ht
    rw [hs, if_pos rfl, if_pos hν]
    have h5 := h.anti _ _ hle ht
    simp only [List.map_cons, List.map_nil, List.sum_cons, List.sum_nil, Nat.add_zero, till]
    by_cases hs' : c.arrivalF s.arrCalls t < u
    · have h6 := h.arr _ _ hs'
      rw [if_pos hs', if_pos hs']
      have h7 : φ (c.arrivalF s.arrCalls t) + 1 ≤ φ s.nextCt := by omega
      have h8 : (φ (c.arrivalF s.arrCalls t) + 1) * (φ (c.arrivalF s.arrCalls t) + 1) ≤ φ s.nextCt * φ s.nextCt :=
        Nat.mul_le_mul h7 h7
      split <;> nlinarith
    · rw [if_neg hs', if_neg hs']
      split <;> omega

theorem pot_inactive (f : Bool) (s : QS T) : pot u φ (if f then setInactive s else s) ≤ pot u φ s := by
  cases f with
  | false => exact le_rfl
  | true =>
    simp only [if_true, pot, setInactive, stream, Bool.false_eq_true, if_false, Nat.add_zero]
    exact Nat.le_add_right _ _

theorem EvOut.pace (h : PaceQ c u φ) {s s' : QS T} (he : EvOut c s s' none) (hcl : s.currentT ≤ headTime s.arrivals)
    (ht : headTime s.arrivals < u) : pot u φ s' < pot u φ s := by
  cases he with
  | idle e => rw [e] at ht; exact absurd ht (not_lt.mpr le_top)
  | arr a rest _ _ _ e _ =>
    have hat := e.time_eq
    rw [← hat] at hcl ht
    have g1 := e.ext.pace h ht
    have g2 : load u φ 2 s.arrivals = (3 * φ a.time + 2) + load u φ 2 rest := by
      rw [load_perm e.perm, List.map_cons, List.sum_cons, till_lt ht]; rfl
    have g3 := h.till 1 hcl ht
    have g4 := Nat.mul_le_mul_left s.queue.length g3
    unfold pot
    rw [e.currentT]
    rcases e.served with ⟨-, e2, -, e3, -, -⟩ | ⟨-, e2, -, e3, -, -⟩
    · rw [e2, load_perm e3, List.map_cons, List.sum_cons]
      have g5 := h.start s.svcCalls ht
      show _ + _ + (till u φ 3 (c.serviceF s.svcCalls a.time) + load u φ 3 s.departures) + _ < _
      omega
    · rw [e2, e3, List.length_append, List.length_singleton, Nat.add_mul, Nat.one_mul]
      have g5 : till u φ 1 a.time = 3 * φ a.time + 1 := till_lt ht
      omega
  | block a rest _ _ _ _ e _ =>
    have hat := e.time_eq
    rw [← hat] at hcl ht
    have g1 := e.ext.pace h ht
    have g2 : load u φ 2 s.arrivals = (3 * φ a.time + 2) + load u φ 2 rest := by
      rw [load_perm e.perm, List.map_cons, List.sum_cons, till_lt ht]; rfl
    have g3 := h.till 1 hcl ht
    have g4 := Nat.mul_le_mul_left s.queue.length g3
    unfold pot
    rw [e.currentT, e.queue, e.departures]
    omega

theorem ArrEff.pace (h : PaceQ c u φ) {s s' : QS T} (he : ArrEff c s s') (hcl : s.currentT ≤ headTime s.arrivals)
    (ht : headTime s.arrivals < u) : pot u φ s' < pot u φ s := he.out.pace h hcl ht

theorem DepSpec.pace (h : PaceQ c u φ) {s s' : QS T} {a : Agent T} (hs : DepSpec c s s' a) (hcl : s.currentT ≤ a.time)
    (ht : a.time < u) : pot u φ s' + (3 * φ a.time + 3) ≤ pot u φ s := by
  have g3 := h.till 1 hcl ht
  obtain ⟨deps, d1, -, d2⟩ := hs.served
  have g2 : load u φ 3 s.departures = (3 * φ a.time + 3) + load u φ 3 deps := by
    rw [load_perm d1, List.map_cons, List.sum_cons, till_lt ht]; rfl
  have g6 : stream u φ s' = stream u φ s := by unfold stream; rw [hs.active, hs.nextCt]
  have g5 : till u φ 1 a.time = 3 * φ a.time + 1 := till_lt ht
  unfold pot
  rw [hs.currentT, hs.arrivals, g6]
  rcases d2 with ⟨b', rest, e1, -, e2, -, e4, -, -⟩ | ⟨-, e1, -, e3, -, -⟩
  · rw [e1, e2, load_perm e4, List.map_cons, List.sum_cons, List.length_cons, Nat.add_mul, Nat.one_mul]
    have g4 := Nat.mul_le_mul_left rest.length g3
    have g7 := h.start s.svcCalls ht
    show _ + _ + (till u φ 3 (c.serviceF s.svcCalls a.time) + load u φ 3 deps) + _ + _ ≤ _
    omega
  · have g4 := Nat.mul_le_mul_left s.queue.length g3
    rw [e1, e3]
    omega

theorem DepEff.pace (h : PaceQ c u φ) {s s' : QS T} {a : Agent T} (he : DepEff c s s' a) (hcl : s.currentT ≤ s.time)
    (ht : s.time < u) : pot u φ s' + (3 * φ a.time + 3) ≤ pot u φ s := by
  rw [← he.time] at hcl ht
  exact he.spec.pace h hcl ht

theorem RecvEff.pace (h : PaceQ c u φ) {s s' : QS T} {a : Agent T} {off : QS T → Bool} (he : RecvEff c s s' a off)
    (hk : Simple c) (hb : QBase s) (hcl : s.currentT ≤ a.time) (hle : a.time ≤ headTime s.arrivals)
    (ht : a.time < u) : pot u φ s' < pot u φ s + (3 * φ a.time + 2) := by
  obtain ⟨m, m1, m2, m3, m4, m5, m6, m7, m8, m9, m10, m11, m12, m13⟩ := he.mid
  obtain ⟨arr, -, -, h3, h4⟩ := handover_spec c s a hk.ne_null hb.okA hb.time
  rw [h4] at m1
  simp only [Except.ok.injEq] at m1
  have hcur : m.currentT = s.currentT := by rw [← m1]
  have hnx : m.nextCt = s.nextCt := by rw [← m1]
  have hhd : headTime m.arrivals = a.time := by
    rw [← m1]; show headTime arr = _; rw [h3]; exact min_eq_left hle
  have hw : pot u φ m = pot u φ s + (3 * φ a.time + 2) := by
    have g6 : stream u φ m = stream u φ s := by unfold stream; rw [m3, hnx]
    unfold pot
    rw [load_perm m8, List.map_cons, List.sum_cons, m9, m10, hcur, g6, till_lt ht]
    show _ + load u φ 2 s.arrivals + _ + _ + _ = _
    omega
  have hm := maybeInactive_same (off m) m
  have g1 := m13.pace h (by
    rw [hm.1, hhd]
    cases off m <;> exact hcur ▸ hcl) (by rw [hm.1, hhd]; exact ht)
  have := pot_inactive (u := u) (φ := φ) (off m) m
  omega

theorem Pace.queue {N : NetCfg T R} (h : Pace N u φ) {k : Nat} (hk : k < N.nE) (hs : Simple (N.qc k)) :
    PaceQ (N.qc k) u φ := ⟨h.anti, h.svc k hk hs, h.arr k hk hs⟩

/-- The potential of a network. -/
def netPot (N : NetCfg T R) (u : T) (φ : T → Nat) (qs : Nat → QS T) : Nat := ∑ k ∈ Finset.range N.nE, pot u φ (qs k)

theorem netPot_update {N : NetCfg T R} {qs : Nat → QS T} {k : Nat} (hk : k < N.nE) (s : QS T) :
    netPot N u φ (Function.update qs k s) + pot u φ (qs k) = netPot N u φ qs + pot u φ s := by
  unfold netPot
  have hm : k ∈ Finset.range N.nE := Finset.mem_range.mpr hk
  rw [← Finset.add_sum_erase _ _ hm, ← Finset.add_sum_erase (a := k) _ (fun k => pot u φ (qs k)) hm]
  simp only [Function.update_self]
  have : ∑ x ∈ (Finset.range N.nE).erase k, pot u φ (Function.update qs k s x) =
      ∑ x ∈ (Finset.range N.nE).erase k, pot u φ (qs x) := by
    refine Finset.sum_congr rfl fun x hx => ?_
    rw [Function.update_of_ne (Finset.ne_of_mem_erase hx)]
  rw [this]
  ring

/-- An event takes the clock to `u`, or lowers the potential, or does nothing but shorten the schedule. -/
theorem StepOut.pace {N : NetCfg T R} (hN : N.Ok) (hp : Pace N u φ) {b : Nat → Bool} {n n' : Net T R}
    (hi : NetInv N b n) (h : StepOut N n n') :
    u ≤ n'.t ∨ netPot N u φ n'.qs < netPot N u φ n.qs ∨ (n'.qs = n.qs ∧ n'.heap.size < n.heap.size) := by
  cases h with
  | empty h0 h1 => left; rw [h1]; exact le_top
  | idle k x hq h1 h2 h3 h4 h5 h6 h7 =>
    right; right
    exact ⟨by rw [h7], by rw [h7]; exact NetSpec.pop_shrinks hi h2 h6⟩
  | arrive k s' h1 h2 h3 h4 h5 h6 h7 h8 h9 h10 =>
    by_cases hu : (n.qs k).time < u
    swap
    · left; rw [h10]; exact not_lt.mp hu
    right; left
    have hcl : (n.qs k).currentT ≤ (n.qs k).time := (hi.clk k h1 h3).trans (hi.tau k h1)
    have htime : (n.qs k).time = headTime (n.qs k).arrivals := by
      rcases desc_cases (hi.good k h1) with ⟨g1, -⟩ | ⟨-, -, -, -, g1, -⟩ | ⟨g1, -⟩
      · rw [g1] at h6; exact absurd h6 (by decide)
      · exact g1
      · rw [g1] at h6; exact absurd h6 (by decide)
    have hm := maybeInactive_same ((n.qs k).active && n.maxed N) (n.qs k)
    have g1 := h7.pace (hp.queue h1 h3) (by
      rw [hm.1, ← htime]
      cases (n.qs k).active && n.maxed N <;> exact hcl) (by rw [hm.1, ← htime]; exact hu)
    have g3 := pot_inactive (u := u) (φ := φ) ((n.qs k).active && n.maxed N) (n.qs k)
    rw [h8]
    have := netPot_update (u := u) (φ := φ) (qs := n.qs) h1 s'
    omega
  | block k e a s1 d h1 h2 h3 h4 h5 h6 h7 h8 h9 h10 h11 h12 h13 h14 h15 =>
    by_cases hu : (n.qs k).time < u
    swap
    · left; rw [h15]; exact not_lt.mp hu
    right; left
    obtain ⟨s1e, s2e, s3e, s4e, s5e, s6e, s7e, s8e, s9e, -⟩ := h12.same
    obtain ⟨rest, d1, d2⟩ := h12.deps
    rcases desc_cases (hi.good k h1) with ⟨g1, -⟩ | ⟨g1, -⟩ | ⟨g1, g2, g3, g4, g5, g6⟩
    · rw [g1] at h8; exact absurd h8 (by decide)
    · rw [g1] at h8; exact absurd h8 (by decide)
    have hat : a.time = (n.qs k).time := by
      rw [g5]
      have := h12.head
      cases hd : (n.qs k).departures with
      | nil => rw [hd] at this; simp at this
      | cons y l => rw [hd] at this; simp at this; subst this; rfl
    have hnx : s1.nextCt = (n.qs k).nextCt := by
      have := h12.out
      cases this <;> rfl
    have hlt : pot u φ s1 < pot u φ (n.qs k) := by
      have g8 : stream u φ s1 = stream u φ (n.qs k) := by unfold stream; rw [s6e, hnx]
      unfold pot
      rw [s1e, s2e, s3e, g8, load_perm d1, load_perm d2, List.map_cons, List.map_cons, List.sum_cons, List.sum_cons,
        till_lt (hat ▸ hu : a.time < u)]
      simp only
      have : till u φ 3 ((if n.bas = true then some (N.jit n.jitCalls (headTime (n.qs e).departures)) else none).getD
          ((N.qc k).serviceF (n.qs k).svcCalls a.time)) < 3 * φ a.time + 3 := by
        cases n.bas with
        | true =>
          simp only [if_true, Option.getD_some, till]
          split
          · rename_i hj
            have q1 := hp.jit _ _ hj
            have q2 : a.time ≤ headTime (n.qs e).departures := by
              rw [hat]
              refine (h7 e h3).trans ?_
              rw [(hi.good e h3).base.time, nextTime]
              exact min_le_right _ _
            have q3 := hp.anti _ _ q2 ((hN.jit _ _).trans_lt hj)
            omega
          · omega
        | false =>
          simp only [Bool.false_eq_true, if_false, Option.getD_none]
          have := (hp.queue h1 h5).start (n.qs k).svcCalls (hat ▸ hu : a.time < u)
          omega
      omega
    rw [h13]
    have w1 := netPot_update (u := u) (φ := φ)
      (qs := Function.update n.qs e { n.qs e with numBlocked := (n.qs e).numBlocked + 1 }) h1 s1
    have w2 := netPot_update (u := u) (φ := φ) (qs := n.qs) h3 { n.qs e with numBlocked := (n.qs e).numBlocked + 1 }
    rw [Function.update_of_ne h4] at w1
    have w3 : pot u φ { n.qs e with numBlocked := (n.qs e).numBlocked + 1 } = pot u φ (n.qs e) := rfl
    omega
  | move k e a s1 s2 d h1 h2 h3 h4 h5 h6 h7 h8 h9 h10 h11 h12 h13 h14 =>
    by_cases hu : (n.qs k).time < u
    swap
    · left; rw [h14]; exact not_lt.mp hu
    right; left
    have hcl : (n.qs k).currentT ≤ (n.qs k).time := (hi.clk k h1 h4).trans (hi.tau k h1)
    have w1 := h10.pace (hp.queue h1 h4) hcl hu
    have u1 := netPot_update (u := u) (φ := φ) (qs := n.qs) h1 s1
    have u2 := netPot_update (u := u) (φ := φ) (qs := Function.update n.qs k s1) h3 s2
    have hat := h10.time
    suffices hs2 : pot u φ s2 ≤ pot u φ (Function.update n.qs k s1 e) + (3 * φ a.time + 2) by
      rw [h12]; omega
    cases h11 with
    | null m g1 g2 g3 g4 g5 =>
      have hm : pot u φ m = pot u φ (Function.update n.qs k s1 e) := by
        unfold addArrivalAgent at g2
        rw [if_pos g1] at g2
        simp only [Except.ok.injEq] at g2
        rw [← g2]
        split <;> rfl
      have := pot_inactive (u := u) (φ := φ) (stopAt N n k e s1.numTotal m) m
      rw [g5]
      omega
    | queue g1 g2 =>
      have hbk := (hi.good k h1).base
      have hA : a.time ≤ headTime (n.qs k).arrivals := by rw [hat, hbk.time, nextTime]; exact min_le_left _ _
      have key : QBase (Function.update n.qs k s1 e) ∧ (Function.update n.qs k s1 e).currentT ≤ a.time ∧
          a.time ≤ headTime (Function.update n.qs k s1 e).arrivals := by
        by_cases hke : e = k
        · subst hke
          rw [Function.update_self]
          exact ⟨⟨by rw [h10.spec.arrivals]; exact hbk.okA, h10.spec.ok, h10.spec.time⟩,
            by rw [h10.spec.currentT], by rw [h10.spec.arrivals]; exact hA⟩
        · rw [Function.update_of_ne hke]
          have hbe := (hi.good e h3).base
          refine ⟨hbe, ?_, ?_⟩
          · rw [hat]; exact (hi.clk e h3 g1).trans (hi.tau k h1)
          · rw [hat]
            refine (h6 e h3).trans ?_
            rw [hbe.time, nextTime]
            exact min_le_left _ _
      exact (g2.pace (hp.queue h3 g1) g1 key.1 key.2.1 key.2.2 (hat ▸ hu)).le

end Verif
