import Verif.NetTrip
import Verif.NetProj
import Verif.QueueLaw

/-!
# Time integrals along a history of a network (specification and proof support)

A queue of a network keeps the time of its own last event; the network keeps the time of the last event anywhere. The
integrals over the clock of the network are those over the clock of the queue and the rest since its last event.
-/

set_option linter.unusedSectionVars false
set_option linter.unusedSimpArgs false
set_option linter.unusedVariables false

namespace Verif

open NetSpec

variable {T R : Type*} [LinearOrder T] [OrderTop T] [Zero T] [LinearOrder R] [Add R]

/-- Histories of a network that remember every state passed through, the latest first. -/
inductive NetTraj (N : NetCfg T R) (b : Nat → Bool) (ok : Net T R → NetOp R → Prop) : Net T R → List (Net T R) → Prop
  | new (bas : Bool) (probs : Nat → List R) : (∀ v, (probs v).length = (N.outEdges v).length) →
      NetTraj N b ok (Net.init N b bas probs) []
  | step {n n' : Net T R} {L : List (Net T R)} (op : NetOp R) : NetTraj N b ok n L → op.Allowed N n → ok n op →
      op.run N n = .ok n' → NetTraj N b ok n' (n :: L)

theorem NetTraj.hist {N : NetCfg T R} {b : Nat → Bool} {ok : Net T R → NetOp R → Prop} {n : Net T R}
    {L : List (Net T R)} (h : NetTraj N b ok n L) : NetHist N b ok n := by
  induction h with
  | new bas probs hp => exact .new bas probs hp
  | step op _ h1 h2 h3 ih => exact .step op ih h1 h2 h3

section
variable {M : Type*} [AddCommGroup M]

/-- The integral of the number `g`, constant between two calls, over the clock of the network. -/
def netArea (f : T → M) (g : Net T R → Nat) : Net T R → List (Net T R) → M
  | _, [] => 0
  | n', n :: L => netArea f g n L + g n • (f n'.t - f n.t)
end

/-- A number that depends only on how many agents wait and are in service. -/
def Counts (g : QS T → Nat) : Prop :=
  ∀ s s' : QS T, s'.queue.length = s.queue.length → (agents s'.departures).length = (agents s.departures).length →
    g s' = g s

/-- From `s`, at network time `t` at the latest, a queue comes to `s'`, and the integrals are as if it had stayed in
`s` until `t`. -/
def Tracks (M : Type*) [AddCommGroup M] (c : QCfg T) (t : T) (s s' : QS T) : Prop :=
  ∀ l, Traj c true (LawOk c) s l → ∃ l', Traj c true (LawOk c) s' l' ∧
    ∀ (f : T → M) (g : QS T → Nat), Counts g →
      area f g s' l' + g s' • (f t - f s'.currentT) = area f g s l + g s • (f t - f s.currentT)

variable {M : Type*} [AddCommGroup M]

theorem Tracks.refl {c : QCfg T} {t : T} {s : QS T} : Tracks M c t s s :=
  fun l h => ⟨l, h, fun _ _ _ => rfl⟩

theorem Tracks.trans {c : QCfg T} {t : T} {s s1 s2 : QS T} (h1 : Tracks M c t s s1) (h2 : Tracks M c t s1 s2) :
    Tracks M c t s s2 := by
  intro l h
  obtain ⟨l1, g1, e1⟩ := h1 l h
  obtain ⟨l2, g2, e2⟩ := h2 l1 g1
  exact ⟨l2, g2, fun f g hg => (e2 f g hg).trans (e1 f g hg)⟩

/-- An operation that does not touch the clock and the numbers. -/
theorem Tracks.still {c : QCfg T} {t : T} {s s' : QS T} (op : QOp T) (hok : LawOk c s op) (hr : op.run c s = .ok s')
    (hc : s'.currentT = s.currentT) (hq : s'.queue.length = s.queue.length)
    (hd : (agents s'.departures).length = (agents s.departures).length) : Tracks M c t s s' := by
  intro l h
  refine ⟨s :: l, .step op h hok hr, fun f g hg => ?_⟩
  simp only [area, hc, sub_self, smul_zero, add_zero, hg s s' hq hd]

/-- An event at network time `t`. -/
theorem Tracks.event {c : QCfg T} {t : T} {s s' : QS T} (op : QOp T) (hok : LawOk c s op) (hr : op.run c s = .ok s')
    (hc : s'.currentT = t) : Tracks M c t s s' := by
  intro l h
  refine ⟨s :: l, .step op h hok hr, fun f g hg => ?_⟩
  simp only [area, hc, sub_self, smul_zero, add_zero]

theorem Tracks.inactive {c : QCfg T} {t : T} (f : Bool) (s : QS T) : Tracks M c t s (if f then setInactive s else s) := by
  cases f with
  | true => exact Tracks.still .setInactive ⟨trivial, by simp⟩ rfl rfl rfl rfl
  | false => exact .refl

/-- Ids after a departure. -/
theorem DepEffA.gone {N : NetCfg T R} {qs : Nat → QS T} {k : Nat} {s1 : QS T} {a0 a : Agent T} (hi : Ids N qs) (hk : k < N.nE)
    (h : DepEffA (N.qc k) (qs k) s1 a0 a) {e : Nat} (he : e < N.nE) :
    a.id ∉ presentIds (Function.update qs k s1 e) ∧
      (a.id.1 = e → a.id.2 < (Function.update qs k s1 e).oArrivals) := by
  have hids := h.ids.1
  have hpres : a.id ∈ presentIds (qs k) := hids.mem_iff.mpr (by simp)
  have hmade := (hi.made a.id (mem_everyone.mpr ⟨k, hk, hpres⟩)).2
  by_cases hek : e = k
  · subst hek
    rw [Function.update_self]
    refine ⟨(List.nodup_cons.mp (hids.nodup_iff.mp (here_nodup hi.nodup hk))).1, fun e1 => ?_⟩
    rw [h.ids.2.2.1]; rwa [e1] at hmade
  · rw [Function.update_of_ne hek]
    exact ⟨elsewhere hi.nodup hk hpres he hek, fun e1 => by rwa [e1] at hmade⟩

theorem StepOutA.tracks {N : NetCfg T R} (hN : N.OkA) {b : Nat → Bool} {n n' : Net T R} (hi : NetInvA N b n)
    (hid : Ids N n.qs) (h : StepOutA N n n') {j : Nat} (hj : j < N.nE) (hs : Simple (N.qc j)) :
    Tracks M (N.qc j) n'.t (n.qs j) (n'.qs j) := by
  have hcl : ∀ k < N.nE, (N.qc k).kind ≠ .null → (n.qs k).currentT ≤ (n.qs k).time := by
    intro k hk hsk
    exact (hi.clk k hk hsk).trans (hi.tau k hk)
  cases h with
  | empty h0 h1 => rw [h1]; exact .refl
  | idle k x hp h1 h2 h3 h4 h5 h6 h7 => rw [h7]; exact .refl
  | arrive k s' h1 h2 h3 h4 h5 h6 h7 h8 h9 h10 =>
    rw [h8, h10]
    by_cases hjk : j = k
    · subst hjk
      rw [Function.update_self]
      have hcur := h7.cur
      have ht : (if (n.qs j).active && n.maxed N then setInactive (n.qs j) else n.qs j).time = (n.qs j).time := by
        split <;> rfl
      rw [ht] at hcur
      exact (Tracks.inactive ((n.qs j).active && n.maxed N) _).trans (Tracks.event .next ⟨trivial, by simp⟩
        (by simp only [QOp.run]; rw [h7.ev]) hcur)
    · rw [Function.update_of_ne hjk]; exact .refl
  | block k e a s1 d h1 h2 h3 h4 h5 h6 h7 h8 h9 h10 h11 h12 h13 h14 h15 =>
    rw [h13]
    by_cases hjk : j = k
    · subst hjk
      rw [Function.update_self]
      obtain ⟨g1, g2, g3, -⟩ := h12.same
      refine Tracks.still (.delay _ 1) ⟨?_, by simp⟩ h12.ev g3 (by rw [g2]) ?_
      · cases hb : n.bas with
        | false => simp [DataOk]
        | true =>
          simp only [if_true, DataOk]
          refine (hcl j h1 h5).trans ((h7 e h3).trans ?_)
          refine le_trans ?_ (hN.jit _ _)
          rw [(hi.good e h3).base.time]
          exact min_le_right _ _
      · obtain ⟨rest, d1, d2⟩ := h12.deps
        rw [d1.length_eq, d2.length_eq]; rfl
    · rw [Function.update_of_ne hjk]
      by_cases hje : j = e
      · subst hje
        rw [Function.update_self]
        exact Tracks.still .note ⟨trivial, by simp⟩ (by simp [QOp.run, h11]) rfl rfl rfl
      · rw [Function.update_of_ne hje]; exact .refl
  | move k e a0 a s1 s2 d h1 h2 h3 h4 h5 h6 h7 h8 h9 h10 h11 h12 h13 h14 =>
    rw [h12, h14]
    have hmid : Tracks M (N.qc j) (n.qs k).time (n.qs j) (Function.update n.qs k s1 j) := by
      by_cases hjk : j = k
      · subst hjk; rw [Function.update_self]
        exact Tracks.event .next ⟨trivial, by simp⟩ (by simp [QOp.run, h10.ev]) h10.cur
      · rw [Function.update_of_ne hjk]; exact .refl
    by_cases hje : j = e
    · subst hje
      rw [Function.update_self]
      cases h11 with
      | null m g1 => exact absurd g1 hs.ne_null
      | queue g1 g2 =>
        refine hmid.trans ?_
        have hc : (Function.update n.qs k s1 j).currentT ≤ a.time := by
          rw [h10.time]
          by_cases hjk : j = k
          · subst hjk; rw [Function.update_self, h10.cur]
          · rw [Function.update_of_ne hjk]
            exact (hi.clk j hj hs.ne_null).trans (hi.tau k h1)
        obtain ⟨n1, n2⟩ := h10.gone hid h1 hj
        have hcur2 := g2.cur
        obtain ⟨m, m1, m2, m3, m4, m5, m6, m7, m8, m9, m10, m11, m12, m13⟩ := g2.mid
        have hmc : m.currentT = (Function.update n.qs k s1 j).currentT := by
          unfold addArrivalAgent at m1
          rw [if_neg g1] at m1
          split at m1
          · simp at m1
          · simp only [Except.ok.injEq] at m1
            rw [← m1]; rfl
        refine (Tracks.still (.handover a) ⟨⟨hc, n1, ?_⟩, by simp⟩ (by simp [QOp.run, m1]) hmc (by rw [m10])
          (by rw [m9])).trans ((Tracks.inactive (stopAt N n k j s1.numTotal m) m).trans
            (Tracks.event .next ⟨trivial, by simp⟩ (by simp [QOp.run, m13.ev]) (by rw [hcur2, h10.time])))
        rw [hN.idx j hj]; exact n2
    · rw [Function.update_of_ne hje]; exact hmid

/-- The data are kept and no number of servers is changed. -/
def LawNet (_ : Net T R) : NetOp R → Prop
  | .collect _ _ => False
  | .clearData _ => False
  | .clear => False
  | .setServers _ _ => False
  | _ => True

theorem activate_tracks {N : NetCfg T R} {b : Nat → Bool} (hN : N.OkA) {j : Nat} {t : T} (hj : j < N.nE)
    (hs : Simple (N.qc j)) : ∀ (l : List Nat) (n n' : Net T R), (∀ k < N.nE, QGoodA (N.qc k) (b k) (n.qs k)) →
      Net.activate N l n = .ok n' → Tracks M (N.qc j) t (n.qs j) (n'.qs j) ∧ n'.t = n.t := by
  intro l
  induction l with
  | nil => intro n n' _ h; simp only [Net.activate, Except.ok.injEq] at h; rw [h]; exact ⟨.refl, rfl⟩
  | cons e es ih =>
    intro n n' hg h
    simp only [Net.activate] at h
    split at h
    · simp at h
    · rename_i he
      have he : e < N.nE := by omega
      split at h
      · simp at h
      · rename_i s' hs'
        obtain ⟨s2, g1, g2, -⟩ := Verif.activate_oneA (hN.fwd e he) (hg e he)
        rw [hs'] at g1
        simp only [Except.ok.injEq] at g1
        subst g1
        have hg' : ∀ k < N.nE, QGoodA (N.qc k) (b k) (((n.setQ e s').setNum e s'.numTotal).qs k) := by
          intro k hk
          show QGoodA (N.qc k) (b k) (Function.update n.qs e s' k)
          by_cases hke : k = e
          · subst hke; rw [Function.update_self]; exact g2
          · rw [Function.update_of_ne hke]; exact hg k hk
        obtain ⟨i1, i2⟩ := ih _ _ hg' h
        refine ⟨Tracks.trans ?_ i1, i2⟩
        show Tracks M (N.qc j) t (n.qs j) (Function.update n.qs e s' j)
        by_cases hje : j = e
        · subst hje
          rw [Function.update_self]
          have hb := (hg j hj).base
          cases ha : (n.qs j).active with
          | true =>
            have : s' = n.qs j := by unfold setActive at hs'; rw [if_pos ha] at hs'; simpa using hs'.symm
            rw [this]; exact .refl
          | false =>
            obtain ⟨arr, ext, ν, act, calls, h1, h2, h3, h4⟩ :=
              setActive_spec (N.qc j) (n.qs j) hs.ne_null hb.okA hb.time ha
            have hs0 := hs'
            rw [hs'] at h4
            simp only [Except.ok.injEq] at h4
            refine Tracks.still .setActive ⟨trivial, by simp⟩ hs0 ?_ ?_ ?_ <;> rw [h4]
        · rw [Function.update_of_ne hje]; exact .refl

/-- The integrals over the clock of the network. -/
theorem NetTraj.queue {N : NetCfg T R} (hN : N.OkA) {n : Net T R} {L : List (Net T R)}
    (h : NetTraj N (fun _ => true) LawNet n L) {k : Nat} (hk : k < N.nE) (hs : Simple (N.qc k)) :
    ∃ l, Traj (N.qc k) true (LawOk (N.qc k)) (n.qs k) l ∧ ∀ (f : T → M) (g : QS T → Nat), Counts g →
      netArea f (fun n => g (n.qs k)) n L =
        area f g (n.qs k) l + g (n.qs k) • (f n.t - f (n.qs k).currentT) := by
  induction h with
  | new bas probs hp =>
    refine ⟨[], .init, fun f g hg => ?_⟩
    simp [netArea, area, Net.init, QS.init]
  | @step n n' L op h ha ho hr ih =>
    obtain ⟨l, il, ie⟩ := ih
    have hinv := h.hist.reach.invA hN
    have hid : Ids N n.qs := ⟨(C72_ids_distinct hN h.hist.reach).1, (C72_ids_distinct hN h.hist.reach).2⟩
    have fin : Tracks M (N.qc k) n'.t (n.qs k) (n'.qs k) → ∃ l, Traj (N.qc k) true (LawOk (N.qc k)) (n'.qs k) l ∧
        ∀ (f : T → M) (g : QS T → Nat), Counts g → netArea f (fun n => g (n.qs k)) n' (n :: L) =
          area f g (n'.qs k) l + g (n'.qs k) • (f n'.t - f (n'.qs k).currentT) := by
      intro ht
      obtain ⟨l', il', ie'⟩ := ht l il
      refine ⟨l', il', fun f g hg => ?_⟩
      rw [netArea, ie f g hg, ie' f g hg, add_assoc, ← smul_add]
      congr 2
      abel
    refine fin ?_
    cases op with
    | step =>
      rw [NetOp.run, simulate_one] at hr
      split at hr
      · rename_i hin
        rcases step_specA hN hinv hin with ⟨n2, g1, g2, -⟩ | ⟨g1, -⟩
        · rw [g1] at hr; simp only [Except.ok.injEq] at hr; subst hr
          exact g2.tracks hN hinv hid hk hs
        · rw [g1] at hr; simp at hr
      · simp at hr
    | initialise pick a =>
      have hr : n.initialise N pick a = .ok n' := hr
      unfold Net.initialise at hr
      split at hr
      · simp at hr
      · split at hr
        · simp at hr
        · split at hr
          · simp at hr
          · split at hr
            · simp at hr
            · rename_i n1 h1
              split at hr
              · simp at hr
              · simp only [Except.ok.injEq] at hr
                subst hr
                exact (activate_tracks hN hk hs _ _ _ hinv.good h1).1
    | clear => exact ho.elim
    | collect v ks => exact ho.elim
    | clearData ks => exact ho.elim
    | setServers k m => exact ho.elim
    | setProbs p => simp only [NetOp.run, Except.ok.injEq] at hr; subst hr; exact .refl
    | setBlocking v => simp only [NetOp.run, Except.ok.injEq] at hr; subst hr; exact .refl
    | copy =>
      obtain ⟨h', g1, -⟩ := hinv.copy hN
      simp only [NetOp.run, g1, Except.ok.injEq] at hr
      subst hr; exact .refl
    | setInactive e =>
      simp only [NetOp.run, Except.ok.injEq] at hr
      subst hr
      show Tracks M (N.qc k) n.t (n.qs k) (Function.update n.qs e _ k)
      by_cases hke : k = e
      · subst hke; rw [Function.update_self]
        exact Tracks.still .setInactive ⟨trivial, by simp⟩ rfl rfl rfl rfl
      · rw [Function.update_of_ne hke]; exact .refl

end Verif
