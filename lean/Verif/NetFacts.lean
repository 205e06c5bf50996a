import Verif.NetRun
import Verif.QueueData
import Mathlib.Algebra.BigOperators.Group.List.Basic
import Mathlib.Data.List.Perm.Lattice

/-! # Sums over a network and the agents in it (proof support) -/

set_option linter.unusedSectionVars false
set_option linter.unusedSimpArgs false
set_option linter.unusedVariables false

namespace Verif

theorem sum_update {α : Type*} [AddCommMonoid α] (f : Nat → α) (m k : Nat) (v : α) :
    k < m → ((List.range m).map (Function.update f k v)).sum + f k = ((List.range m).map f).sum + v := by
  have hno : ∀ m, m ≤ k → ((List.range m).map (Function.update f k v)) = (List.range m).map f := by
    intro m hm
    refine List.map_congr_left fun j hj => ?_
    rw [Function.update_of_ne]
    have := List.mem_range.mp hj; omega
  induction m with
  | zero => intro h; omega
  | succ m ih =>
    intro h
    rw [List.range_succ, List.map_append, List.map_append, List.sum_append, List.sum_append]
    simp only [List.map_cons, List.map_nil, List.sum_cons, List.sum_nil, add_zero]
    by_cases hk : k = m
    · subst hk
      rw [hno k le_rfl, Function.update_self, add_right_comm]
    · rw [Function.update_of_ne (Ne.symm hk), add_right_comm, ih (by omega), add_right_comm]

variable {T R : Type*} [LinearOrder T] [OrderTop T] [Zero T] [LinearOrder R] [Add R]

/-- Ids of all agents in a network. -/
def everyone (N : NetCfg T R) (qs : Nat → QS T) : List (Nat × Nat) :=
  (List.range N.nE).flatMap fun k => presentIds (qs k)

theorem everyone_count (N : NetCfg T R) (qs : Nat → QS T) (x : Nat × Nat) :
    (everyone N qs).count x = ((List.range N.nE).map fun k => (presentIds (qs k)).count x).sum := by
  rw [everyone, List.count_flatMap]; rfl

theorem everyone_update {N : NetCfg T R} {qs : Nat → QS T} {k : Nat} (hk : k < N.nE) {s' : QS T}
    {A B : List (Nat × Nat)} (h : (presentIds s' ++ A).Perm (B ++ presentIds (qs k))) :
    (everyone N (Function.update qs k s') ++ A).Perm (B ++ everyone N qs) := by
  rw [List.perm_iff_count]
  intro x
  have h1 := (List.perm_iff_count.mp h) x
  simp only [List.count_append] at h1 ⊢
  rw [everyone_count, everyone_count]
  have h2 := sum_update (fun j => (presentIds (qs j)).count x) N.nE k ((presentIds s').count x) hk
  have h3 : (fun j => (presentIds (Function.update qs k s' j)).count x) =
      Function.update (fun j => (presentIds (qs j)).count x) k ((presentIds s').count x) := by
    funext j
    by_cases hj : j = k
    · subst hj; simp
    · simp [hj]
  rw [h3]
  omega

theorem mem_everyone {N : NetCfg T R} {qs : Nat → QS T} {x : Nat × Nat} :
    x ∈ everyone N qs ↔ ∃ k < N.nE, x ∈ presentIds (qs k) := by
  simp [everyone]

theorem NullQ.ids {s : QS T} (h : NullQ s) : presentIds s = [] := by
  obtain ⟨-, -, -, h4, h5, h6⟩ := h
  simp [presentIds, h4, h5, h6]

theorem DepSpec.ids {c : QCfg T} {s s' : QS T} {a : Agent T} (h : DepSpec c s s' a) :
    (presentIds s).Perm (a.id :: presentIds s') := by
  obtain ⟨deps, g1, -, g3⟩ := h.served
  rw [List.perm_iff_count]
  intro x
  have c1 := List.perm_iff_count.mp (g1.map (·.id)) x
  simp only [presentIds, List.count_append, List.count_cons, List.map_cons, h.arrivals] at c1 ⊢
  rcases g3 with ⟨b, rest, e1, -, e3, -, e4, -, -⟩ | ⟨-, e2, -, e3, -, -⟩
  · have c2 := List.perm_iff_count.mp (e4.map (·.id)) x
    simp only [List.map_cons, List.count_cons] at c2
    rw [e1, e3]
    simp only [List.map_cons, List.count_cons]
    omega
  · rw [e2, e3]; omega

/-- Agents created and lost in an arrival event. -/
theorem EvOut.ids {c : QCfg T} {s s' : QS T} (h : EvOut c s s' none) :
    ∃ ext gone : List (Agent T), (presentIds s' ++ gone.map (·.id)).Perm (ext.map (·.id) ++ presentIds s) ∧
      s'.oArrivals = s.oArrivals + ext.length ∧ (∀ a ∈ ext, a.id = (c.edge.idx, s.oArrivals)) ∧ ext.length ≤ 1 ∧
      s'.lost = s.lost ++ gone ∧ gone.length ≤ 1 ∧ (gone ≠ [] → c.kind = .loss) ∧
      (s.active = false → ext = []) := by
  have ext : ∀ (a : Agent T) (rest : List (Slot T)), ExtSpec c s s' a.time rest →
      ∃ ext : List (Agent T), (agents s'.arrivals).Perm (ext ++ agents rest) ∧
        s'.oArrivals = s.oArrivals + ext.length ∧ (∀ a ∈ ext, a.id = (c.edge.idx, s.oArrivals)) ∧
        ext.length ≤ 1 ∧ (s.active = false → ext = []) := by
    rintro a rest ⟨ext, h1, h2, h3, -⟩
    refine ⟨ext, h2, h3, ?_⟩
    generalize s'.nextCt = ν, s'.active = act, s'.arrCalls = n at h1
    cases h1 <;> simp_all [newAgent]
  cases h with
  | idle _ _ h => exact ⟨[], [], by rw [h]; simp, by rw [h]; simp, by simp, by simp, by rw [h]; simp, by simp,
      by simp, by simp⟩
  | arr a rest _ _ _ e _ =>
    obtain ⟨ext, g1, g2, g3, g4, g5⟩ := ext a rest e.ext
    refine ⟨ext, [], ?_, g2, g3, g4, by rw [e.lost]; simp, by simp, by simp, g5⟩
    rw [List.perm_iff_count]
    intro x
    have c1 := List.perm_iff_count.mp (e.perm.map (·.id)) x
    have c2 := List.perm_iff_count.mp (g1.map (·.id)) x
    simp only [presentIds, List.count_append, List.count_cons, List.map_cons, List.map_append, List.map_nil,
      List.count_nil] at c1 c2 ⊢
    rcases e.served with ⟨-, e2, -, e4, -, -⟩ | ⟨-, e2, -, e4, -, -⟩
    · have c3 := List.perm_iff_count.mp (e4.map (·.id)) x
      simp only [List.map_cons, List.count_cons] at c3
      rw [e2]; omega
    · rw [e2, e4]
      simp only [List.map_append, List.map_cons, List.map_nil, List.count_append, List.count_cons, List.count_nil]
      omega
  | block a rest _ _ hk _ e _ =>
    obtain ⟨ext, g1, g2, g3, g4, g5⟩ := ext a rest e.ext
    refine ⟨ext, [_], ?_, g2, g3, g4, e.lost, by simp, fun _ => hk, g5⟩
    rw [List.perm_iff_count]
    intro x
    have c1 := List.perm_iff_count.mp (e.perm.map (·.id)) x
    have c2 := List.perm_iff_count.mp (g1.map (·.id)) x
    simp only [presentIds, List.count_append, List.count_cons, List.map_cons, List.map_append, List.map_nil,
      List.count_nil, e.departures, e.queue] at c1 c2 ⊢
    omega

theorem DelayEff.ids {c : QCfg T} {s s' : QS T} {t : Option T} {a : Agent T} (h : DelayEff c s s' t a) :
    (presentIds s').Perm (presentIds s) := by
  obtain ⟨rest, g1, g2⟩ := h.deps
  rw [List.perm_iff_count]
  intro x
  have c1 := List.perm_iff_count.mp (g1.map (·.id)) x
  have c2 := List.perm_iff_count.mp (g2.map (·.id)) x
  simp only [presentIds, List.count_append, List.count_cons, List.map_cons, h.same.1, h.same.2.1] at c1 c2 ⊢
  omega

theorem setInactive_ids (f : Bool) (s : QS T) :
    presentIds (if f then setInactive s else s) = presentIds s := by
  obtain ⟨h1, h2, -⟩ := maybeInactive_same f s
  have h3 : (if f then setInactive s else s).queue = s.queue := by cases f <;> rfl
  simp only [presentIds, h1, h2, h3]

/-- Agents created and lost by a queue receiving an agent. -/
theorem RecvEff.ids {c : QCfg T} {s s' : QS T} {a : Agent T} {off : QS T → Bool} (h : RecvEff c s s' a off) :
    ∃ ext gone : List (Agent T),
      (presentIds s' ++ gone.map (·.id)).Perm (ext.map (·.id) ++ (a.id :: presentIds s)) ∧
      s'.oArrivals = s.oArrivals + ext.length ∧ (∀ a ∈ ext, a.id = (c.edge.idx, s.oArrivals)) ∧ ext.length ≤ 1 ∧
      s'.lost = s.lost ++ gone ∧ gone.length ≤ 1 ∧ (gone ≠ [] → c.kind = .loss) := by
  obtain ⟨m, a1, a2, a3, a4, a5, a6, a7, a8, a9, a10, a11, a12, a13⟩ := h.mid
  obtain ⟨ext, gone, g1, g2, g3, g4, g5, g6, g7, -⟩ := a13.out.ids
  obtain ⟨m1, m2, m3, m4, m5, m6⟩ := maybeInactive_same (off m) m
  refine ⟨ext, gone, ?_, by rw [g2, m5, a4], by rw [← a4, ← m5]; exact g3, g4, by rw [g5, m6, a5], g6, g7⟩
  rw [setInactive_ids] at g1
  refine g1.trans (List.Perm.append_left _ ?_)
  have := a8.map (·.id)
  simp only [presentIds, a9, a10]
  exact this.append_right _

end Verif
