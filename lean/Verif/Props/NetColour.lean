import Verif.NetColour
import Verif.Props.Colour
import Verif.Props.AnyNet2

/-!
# Properties C80, C81: the colours of a network

What a network should show is specified here in terms of the queues alone; the events are those of `Verif.Net`.
-/

set_option linter.unusedSectionVars false
set_option linter.unusedVariables false
set_option linter.unusedSimpArgs false

namespace Verif.ColourSpec

open QueueSpec NetSpec

variable {K : Type*} [Field K] [LinearOrder K]
variable {T R : Type*} [LinearOrder T] [OrderTop T] [Zero T] [LinearOrder R] [Add R]

/-- Queue `k` sits on an edge that begins or ends at `v`. -/
def Touches (N : NetCfg T R) (k v : Nat) : Prop := (N.qc k).edge.src = v ∨ (N.qc k).edge.tgt = v

/-- The tables agree with the edges of the queues, and there is one queue for an edge. -/
structure Wired (C : ColCfg K) (N : NetCfg T R) : Prop where
  inj : ∀ j < N.nE, ∀ k < N.nE, (N.qc j).edge.src = (N.qc k).edge.src → (N.qc j).edge.tgt = (N.qc k).edge.tgt → j = k
  loop : ∀ v k, C.loopAt v = some k ↔ k < N.nE ∧ (N.qc k).edge.src = v ∧ (N.qc k).edge.tgt = v
  inE : ∀ v e, e ∈ C.inEdges v ↔ e < N.nE ∧ (N.qc e).edge.tgt = v
  out : ∀ k < N.nE, ∀ e ∈ N.outEdges (N.qc k).edge.tgt, (N.qc e).edge.src = (N.qc k).edge.tgt

/-- The edge of queue `k` has the colour that the queue reports for it now. -/
def EdgeShown (C : ColCfg K) (N : NetCfg T R) (qs : Nat → QS T) (g : GCol K) (k : Nat) : Prop :=
  C.queue N qs k (if (N.qc k).edge.src = (N.qc k).edge.tgt then 1 else 0) =
    .ok (g.edge ((N.qc k).edge.src, (N.qc k).edge.tgt))

/-- The rim of `v` has the colour of the loop at `v`, or the one for all vertices without a loop. -/
def RimShown (C : ColCfg K) (N : NetCfg T R) (qs : Nat → QS T) (g : GCol K) (v : Nat) : Prop :=
  (∀ k, C.loopAt v = some k → C.queue N qs k 2 = .ok (g.vcol v)) ∧ (C.loopAt v = none → g.vcol v = C.vpen)

/-- `v` has a loop of a type other than 0. -/
def Typed (C : ColCfg K) (N : NetCfg T R) (v : Nat) : Prop := ∃ k, C.loopAt v = some k ∧ (N.qc k).edge.etype ≠ 0

/-- `v` is filled with the colour of its loop of a type other than 0. -/
def LoopShown (C : ColCfg K) (N : NetCfg T R) (qs : Nat → QS T) (g : GCol K) (v : Nat) : Prop :=
  ∀ k, C.loopAt v = some k → C.queue N qs k 0 = .ok (g.vfill v)

/-- `v` is filled with the colour for the load of the queues that lead to it. -/
def LoadShown (C : ColCfg K) (qs : Nat → QS T) (g : GCol K) (v : Nat) : Prop := C.load qs v = .ok (g.vfill v)

section Effects

variable {C : ColCfg K} {N : NetCfg T R} {qs : Nat → QS T} {g g' : GCol K}

theorem updateVertex_eff {v : Nat} (h : updateVertex C N qs g v = .ok g') :
    g'.edge = g.edge ∧ g'.prev = g.prev ∧ (∀ w, w ≠ v → g'.vcol w = g.vcol w ∧ g'.vfill w = g.vfill w) ∧
    (Typed C N v → g'.vfill v = g.vfill v) ∧ (¬ Typed C N v → LoadShown C qs g' v) ∧
    (C.loopAt v = none → g'.vcol v = C.vpen) ∧ (C.loopAt v ≠ none → g'.vcol v = g.vcol v) := by
  unfold updateVertex at h
  cases hl : C.loopAt v with
  | none =>
    simp only [hl] at h
    cases hx : C.load qs v with
    | error e => simp [hx] at h
    | ok x =>
      simp only [hx, Except.ok.injEq] at h
      subst h
      refine ⟨rfl, rfl, fun w hw => ⟨by simp [hw], by simp [hw]⟩, ?_, ?_, by simp, by simp⟩
      · rintro ⟨k, hk, -⟩; rw [hl] at hk; simp at hk
      · intro _; simp [LoadShown, hx]
  | some k =>
    simp only [hl] at h
    split at h
    · next h0 =>
      cases hx : C.load qs v with
      | error e => simp [hx] at h
      | ok x =>
        simp only [hx, Except.ok.injEq] at h
        subst h
        refine ⟨rfl, rfl, fun w hw => ⟨rfl, by simp [hw]⟩, ?_, ?_, by simp, by simp⟩
        · rintro ⟨k', hk, h1⟩; rw [hl] at hk; cases hk; exact absurd h0 h1
        · intro _; simp [LoadShown, hx]
    · next h0 =>
      simp only [Except.ok.injEq] at h
      subst h
      exact ⟨rfl, rfl, fun _ _ => ⟨rfl, rfl⟩, fun _ => rfl, fun h => absurd ⟨k, hl, h0⟩ h, by simp, by simp⟩

theorem paintLoop_eff {k w : Nat} (hs : (N.qc k).edge.src = (N.qc k).edge.tgt) (h : paintLoop C N qs g k w = .ok g') :
    EdgeShown C N qs g' k ∧ (∀ e, e ≠ ((N.qc k).edge.src, (N.qc k).edge.tgt) → g'.edge e = g.edge e) ∧
    g'.prev = g.prev ∧ (∀ u, u ≠ (N.qc k).edge.tgt → g'.vcol u = g.vcol u) ∧
    C.queue N qs k 2 = .ok (g'.vcol (N.qc k).edge.tgt) ∧
    ((N.qc k).edge.etype = 0 → g'.vfill = g.vfill) ∧
    ((N.qc k).edge.etype ≠ 0 → (∀ u, u ≠ w → g'.vfill u = g.vfill u) ∧ C.queue N qs k 0 = .ok (g'.vfill w)) := by
  unfold paintLoop at h
  cases h1 : C.queue N qs k 1 with
  | error e => simp [h1] at h
  | ok x1 =>
    cases h2 : C.queue N qs k 2 with
    | error e => simp [h1, h2] at h
    | ok x2 =>
      simp only [h1, h2] at h
      split at h
      · next h0 =>
        simp only [Except.ok.injEq] at h
        subst h
        refine ⟨by simp [EdgeShown, hs, h1], fun e he => by simp [he], rfl, fun u hu => by simp [hu], by simp, fun _ => rfl,
          fun h => absurd h0 h⟩
      · next h0 =>
        cases h3 : C.queue N qs k 0 with
        | error e => simp [h3] at h
        | ok x =>
          simp only [h3, Except.ok.injEq] at h
          subst h
          exact ⟨by simp [EdgeShown, hs, h1], fun e he => by simp [he], rfl, fun u hu => by simp [hu], by simp,
            fun h => absurd h h0, fun _ => ⟨fun u hu => by simp [hu], by simp⟩⟩

theorem paintEdge_eff {k : Nat} (hs : (N.qc k).edge.src ≠ (N.qc k).edge.tgt) (h : paintEdge C N qs g k = .ok g') :
    EdgeShown C N qs g' k ∧ (∀ e, e ≠ ((N.qc k).edge.src, (N.qc k).edge.tgt) → g'.edge e = g.edge e) ∧
    g'.prev = g.prev ∧ g'.vcol = g.vcol ∧ g'.vfill = g.vfill := by
  unfold paintEdge at h
  cases h1 : C.queue N qs k 0 with
  | error e => simp [h1] at h
  | ok x1 =>
    simp only [h1, Except.ok.injEq] at h
    subst h
    exact ⟨by simp [EdgeShown, hs, h1], fun e he => by simp [he], rfl, rfl, rfl⟩

/-- What has been achieved in the loop of `_update_all_colors`: the first `m` queues are done, the vertices in `D` were
reached, those in `E` before their loop was. -/
structure Upto (C : ColCfg K) (N : NetCfg T R) (qs : Nat → QS T) (g0 : GCol K) (m : Nat) (D E : Nat → Prop)
    (p : GCol K × (Nat → Bool)) : Prop where
  prev : p.1.prev = g0.prev
  edges : ∀ k < m, EdgeShown C N qs p.1 k
  others : ∀ e, (∀ k < m, ((N.qc k).edge.src, (N.qc k).edge.tgt) ≠ e) → p.1.edge e = g0.edge e
  flags : ∀ v, p.2 v = true ↔ ¬ D v
  early : ∀ v, E v → D v
  rim : ∀ v, D v → (∀ k, C.loopAt v = some k → k < m) → RimShown C N qs p.1 v
  plain : ∀ v, C.loopAt v = none → D v → LoadShown C qs p.1 v
  typed : ∀ v k, C.loopAt v = some k → (N.qc k).edge.etype ≠ 0 → k < m → C.queue N qs k 0 = .ok (p.1.vfill v)
  zero : ∀ v k, C.loopAt v = some k → (N.qc k).edge.etype = 0 →
    (E v → LoadShown C qs p.1 v) ∧ (¬ E v → p.1.vfill v = g0.vfill v)
  same : ∀ v, ¬ D v → p.1.vcol v = g0.vcol v ∧ p.1.vfill v = g0.vfill v

variable {m : Nat} {D E : Nat → Prop} {g0 : GCol K} {p p' : GCol K × (Nat → Bool)}

theorem Upto.edge (W : Wired C N) (h : Upto C N qs g0 m D E p) (hm : m < N.nE)
    (hs : (N.qc m).edge.src ≠ (N.qc m).edge.tgt) (hp : paintEdge C N qs p.1 m = .ok g') :
    Upto C N qs g0 (m + 1) D E (g', p.2) := by
  obtain ⟨e1, e2, e3, e4, e5⟩ := paintEdge_eff hs hp
  have hno : ∀ v, C.loopAt v ≠ some m := fun v hv => by
    obtain ⟨-, a, b⟩ := (W.loop v m).mp hv
    exact hs (a.trans b.symm)
  refine ⟨e3.trans h.prev, ?_, ?_, h.flags, h.early, ?_, ?_, ?_, ?_, ?_⟩
  · intro k hk
    by_cases hkm : k = m
    · subst hkm; exact e1
    · have hk' : k < m := by omega
      have := h.edges k hk'
      unfold EdgeShown at this ⊢
      rw [e2 _ fun he => hkm (W.inj k (by omega) m hm (Prod.mk.inj he).1 (Prod.mk.inj he).2)]
      exact this
  · intro e he
    show g'.edge e = _
    rw [e2 _ (he m (by omega)).symm]
    exact h.others e fun k hk => he k (by omega)
  · intro v hv hk
    have := h.rim v hv fun k hk' => by
      have := hk k hk'
      have h2 : k ≠ m := fun h3 => hno v (h3 ▸ hk')
      omega
    unfold RimShown at this ⊢
    simp only [e4]; exact this
  · intro v h1 h2; unfold LoadShown; simp only [e5]; exact h.plain v h1 h2
  · intro v k h1 h2 h3
    simp only [e5]
    refine h.typed v k h1 h2 ?_
    have : k ≠ m := fun h3 => hno v (h3 ▸ h1)
    omega
  · intro v k h1 h2; unfold LoadShown; simp only [e5]; exact h.zero v k h1 h2
  · intro v hv; simp only [e4, e5]; exact h.same v hv

theorem Upto.touch (h : Upto C N qs g0 m D E p) {v : Nat} (hv : ∀ k, C.loopAt v = some k → ¬ D v → m ≤ k)
    (hp : touchVertex C N qs v p = .ok p') :
    Upto C N qs g0 m (fun w => D w ∨ w = v) (fun w => E w ∨ (w = v ∧ ¬ D v)) p' := by
  unfold touchVertex at hp
  by_cases hD : D v
  · rw [if_neg (fun hx => (h.flags v).mp hx hD)] at hp
    simp only [Except.ok.injEq] at hp
    subst hp
    have e1 : (fun w => D w ∨ w = v) = D := funext fun w => propext ⟨fun x => x.elim id fun y => y ▸ hD, .inl⟩
    have e2 : (fun w => E w ∨ (w = v ∧ ¬ D v)) = E :=
      funext fun w => propext ⟨fun x => x.elim id fun y => absurd hD y.2, .inl⟩
    rw [e1, e2]; exact h
  · rw [if_pos ((h.flags v).mpr hD)] at hp
    cases hu : updateVertex C N qs p.1 v with
    | error e => simp [hu] at hp
    | ok g' =>
      simp only [hu, Except.ok.injEq] at hp
      subst hp
      obtain ⟨e1, e2, e3, e4, e5, e6, e7⟩ := updateVertex_eff hu
      refine ⟨e2.trans h.prev, ?_, ?_, ?_, ?_, ?_, ?_, ?_, ?_, ?_⟩
      · intro k hk; have := h.edges k hk; unfold EdgeShown at this ⊢; rw [show (g', _).1.edge = _ from e1]; exact this
      · intro e he; rw [show (g', _).1.edge = _ from e1]; exact h.others e he
      · intro w
        by_cases hw : w = v
        · subst hw; simp
        · simp [hw, h.flags w]
      · rintro w (hw | ⟨rfl, -⟩)
        · exact .inl (h.early w hw)
        · exact .inr rfl
      · intro w hw hk
        by_cases hwv : w = v
        · subst hwv
          refine ⟨fun k hk' => ?_, e6⟩
          exact absurd (hv k hk' hD) (not_le.mpr (hk k hk'))
        · have hw := h.rim w (hw.resolve_right hwv) hk
          unfold RimShown at hw ⊢
          simp only [(e3 w hwv).1]; exact hw
      · intro w hl hw
        by_cases hwv : w = v
        · subst hwv
          exact e5 fun ⟨k, hk, _⟩ => by rw [hl] at hk; simp at hk
        · have := h.plain w hl (hw.resolve_right hwv)
          unfold LoadShown at this ⊢
          simp only [(e3 w hwv).2]; exact this
      · intro w k hl ht hk
        by_cases hwv : w = v
        · subst hwv
          exact absurd (hv k hl hD) (not_le.mpr hk)
        · simp only [(e3 w hwv).2]; exact h.typed w k hl ht hk
      · intro w k hl ht
        by_cases hwv : w = v
        · subst hwv
          refine ⟨fun _ => e5 fun ⟨k', hk, h0⟩ => ?_, fun hx => absurd (.inr ⟨rfl, hD⟩) hx⟩
          rw [hl] at hk; cases hk; exact h0 ht
        · have h1 := h.zero w k hl ht
          unfold LoadShown at h1 ⊢
          simp only [(e3 w hwv).2]
          exact ⟨fun hx => h1.1 (hx.resolve_right fun y => hwv y.1), fun hx => h1.2 fun y => hx (.inl y)⟩
      · intro w hw
        have hwv : w ≠ v := fun y => hw (.inr y)
        simp only [(e3 w hwv).1, (e3 w hwv).2]
        exact h.same w fun y => hw (.inl y)

theorem Upto.loop (W : Wired C N) (h : Upto C N qs g0 m D E p) (hm : m < N.nE)
    (hs : (N.qc m).edge.src = (N.qc m).edge.tgt) (hp : paintLoop C N qs p.1 m (N.qc m).edge.tgt = .ok g') :
    Upto C N qs g0 (m + 1) (fun w => D w ∨ w = (N.qc m).edge.tgt) E (g', Function.update p.2 (N.qc m).edge.tgt false) := by
  obtain ⟨e1, e2, e3, e4, e5, e6, e7⟩ := paintLoop_eff hs hp
  have hl : C.loopAt (N.qc m).edge.tgt = some m := (W.loop _ _).mpr ⟨hm, hs, rfl⟩
  have hv : ∀ v, C.loopAt v = some m → v = (N.qc m).edge.tgt := fun v hv => ((W.loop v m).mp hv).2.2.symm
  refine ⟨e3.trans h.prev, ?_, ?_, ?_, ?_, ?_, ?_, ?_, ?_, ?_⟩
  · intro k hk
    by_cases hkm : k = m
    · subst hkm; exact e1
    · have := h.edges k (by omega)
      unfold EdgeShown at this ⊢
      rw [show (g', _).1.edge _ = _ from
        e2 _ fun he => hkm (W.inj k (by omega) m hm (Prod.mk.inj he).1 (Prod.mk.inj he).2)]
      exact this
  · intro e he
    show g'.edge e = _
    rw [e2 _ (he m (by omega)).symm]
    exact h.others e fun k hk => he k (by omega)
  · intro w
    by_cases hw : w = (N.qc m).edge.tgt
    · subst hw; simp
    · simp [hw, h.flags w]
  · exact fun w hw => .inl (h.early w hw)
  · intro w hw hk
    by_cases hwv : w = (N.qc m).edge.tgt
    · subst hwv
      refine ⟨fun k hk' => ?_, fun hk' => by rw [hl] at hk'; simp at hk'⟩
      rw [hl] at hk'; cases hk'; exact e5
    · have h1 := h.rim w (hw.resolve_right hwv) fun k hk' => by
        have := hk k hk'
        have : k ≠ m := fun h3 => hwv (hv w (h3 ▸ hk'))
        omega
      unfold RimShown at h1 ⊢
      simp only [e4 w hwv]; exact h1
  · intro w hl' hw
    have hwv : w ≠ (N.qc m).edge.tgt := fun h3 => by rw [h3, hl] at hl'; simp at hl'
    have h1 := h.plain w hl' (hw.resolve_right hwv)
    unfold LoadShown at h1 ⊢
    by_cases h0 : (N.qc m).edge.etype = 0
    · simp only [e6 h0]; exact h1
    · simp only [(e7 h0).1 w hwv]; exact h1
  · intro w k hl' ht hk
    by_cases hkm : k = m
    · subst hkm
      rw [hv w hl']; exact (e7 ht).2
    · have h1 := h.typed w k hl' ht (by omega)
      by_cases h0 : (N.qc m).edge.etype = 0
      · simp only [e6 h0]; exact h1
      · have hwv : w ≠ (N.qc m).edge.tgt := fun h3 => by rw [h3, hl] at hl'; cases hl'; exact hkm rfl
        simp only [(e7 h0).1 w hwv]; exact h1
  · intro w k hl' ht
    have h1 := h.zero w k hl' ht
    unfold LoadShown at h1 ⊢
    by_cases h0 : (N.qc m).edge.etype = 0
    · simp only [e6 h0]; exact h1
    · have hwv : w ≠ (N.qc m).edge.tgt := fun h3 => by rw [h3, hl] at hl'; cases hl'; exact h0 ht
      simp only [(e7 h0).1 w hwv]; exact h1
  · intro w hw
    have hwv : w ≠ (N.qc m).edge.tgt := fun y => hw (.inr y)
    have h1 := h.same w fun y => hw (.inl y)
    simp only [e4 w hwv]
    by_cases h0 : (N.qc m).edge.etype = 0
    · simp only [e6 h0]; exact h1
    · simp only [(e7 h0).1 w hwv]; exact h1

theorem updateFirst_spec (W : Wired C N) : ∀ m ≤ N.nE, ∀ p, updateFirst C N qs g0 m = .ok p →
    Upto C N qs g0 m (fun v => ∃ k < m, Touches N k v)
      (fun v => ∃ j < m, Touches N j v ∧ ∀ k, C.loopAt v = some k → j < k) p := by
  intro m
  induction m with
  | zero =>
    intro _ p h
    simp only [updateFirst, Except.ok.injEq] at h
    subst h
    exact ⟨rfl, by simp, by simp, by simp, by simp, by simp, by simp, by simp, by simp, by simp⟩
  | succ m ih =>
    intro hm p h
    unfold updateFirst at h
    cases h1 : updateFirst C N qs g0 m with
    | error e => simp [h1] at h
    | ok p1 =>
      simp only [h1] at h
      have hI := ih (by omega) p1 h1
      unfold allStep at h
      split at h
      · next hs =>
        cases h2 : paintLoop C N qs p1.1 m (N.qc m).edge.tgt with
        | error e => simp [h2] at h
        | ok g' =>
          simp only [h2, Except.ok.injEq] at h
          subst h
          have h3 := hI.loop W (by omega) hs h2
          have hl : C.loopAt (N.qc m).edge.tgt = some m := (W.loop _ _).mpr ⟨by omega, hs, rfl⟩
          have eD : (fun w => (∃ k < m, Touches N k w) ∨ w = (N.qc m).edge.tgt) = fun v => ∃ k < m + 1, Touches N k v := by
            funext w
            refine propext ⟨?_, ?_⟩
            · rintro (⟨k, hk, ht⟩ | rfl)
              · exact ⟨k, by omega, ht⟩
              · exact ⟨m, by omega, .inr rfl⟩
            · rintro ⟨k, hk, ht⟩
              by_cases hkm : k = m
              · subst hkm; exact .inr (ht.elim (fun y => y.symm.trans hs) Eq.symm)
              · exact .inl ⟨k, by omega, ht⟩
          have eE : (fun v => ∃ j < m, Touches N j v ∧ ∀ k, C.loopAt v = some k → j < k) =
              fun v => ∃ j < m + 1, Touches N j v ∧ ∀ k, C.loopAt v = some k → j < k := by
            funext w
            refine propext ⟨fun ⟨j, hj, y⟩ => ⟨j, by omega, y⟩, ?_⟩
            rintro ⟨j, hj, ht, hk⟩
            by_cases hjm : j = m
            · subst hjm
              have hw : w = (N.qc j).edge.tgt := ht.elim (fun y => y.symm.trans hs) Eq.symm
              exact absurd (hk j (hw ▸ hl)) (lt_irrefl _)
            · exact ⟨j, by omega, ht, hk⟩
          rw [← eD, ← eE]; exact h3
      · next hs =>
        cases h2 : paintEdge C N qs p1.1 m with
        | error e => simp [h2] at h
        | ok g' =>
          simp only [h2] at h
          have h3 := hI.edge W (by omega) hs h2
          cases h4 : touchVertex C N qs (N.qc m).edge.tgt (g', p1.2) with
          | error e => simp [h4] at h
          | ok p2 =>
            simp only [h4] at h
            have hk : ∀ v k, C.loopAt v = some k → ¬ (∃ k < m, Touches N k v) → m + 1 ≤ k := by
              intro v k hl hD
              obtain ⟨q1, q2, q3⟩ := (W.loop v k).mp hl
              by_contra hlt
              rcases (show k < m ∨ k = m by omega) with hlt | rfl
              · exact hD ⟨k, hlt, .inl q2⟩
              · exact hs (q2.trans q3.symm)
            have h5 := h3.touch (fun k hl hD => hk _ k hl hD) h4
            have h6 := h5.touch (v := (N.qc m).edge.src) (fun k hl hD => hk _ k hl fun y => hD (.inl y)) h
            have eD : (fun w => ((∃ k < m, Touches N k w) ∨ w = (N.qc m).edge.tgt) ∨ w = (N.qc m).edge.src) =
                fun v => ∃ k < m + 1, Touches N k v := by
              funext w
              refine propext ⟨?_, ?_⟩
              · rintro ((⟨k, hk, ht⟩ | rfl) | rfl)
                · exact ⟨k, by omega, ht⟩
                · exact ⟨m, by omega, .inr rfl⟩
                · exact ⟨m, by omega, .inl rfl⟩
              · rintro ⟨k, hk, ht⟩
                by_cases hkm : k = m
                · subst hkm; exact ht.elim (fun y => .inr y.symm) fun y => .inl (.inr y.symm)
                · exact .inl (.inl ⟨k, by omega, ht⟩)
            have eE : (fun w => ((∃ j < m, Touches N j w ∧ ∀ k, C.loopAt w = some k → j < k) ∨
                (w = (N.qc m).edge.tgt ∧ ¬ ∃ k < m, Touches N k (N.qc m).edge.tgt)) ∨
                (w = (N.qc m).edge.src ∧ ¬ ((∃ k < m, Touches N k (N.qc m).edge.src) ∨
                  (N.qc m).edge.src = (N.qc m).edge.tgt))) =
                fun v => ∃ j < m + 1, Touches N j v ∧ ∀ k, C.loopAt v = some k → j < k := by
              funext w
              refine propext ⟨?_, ?_⟩
              · rintro ((⟨j, hj, y⟩ | ⟨rfl, hD⟩) | ⟨rfl, hD⟩)
                · exact ⟨j, by omega, y⟩
                · exact ⟨m, by omega, .inr rfl, fun k hl => hk _ k hl hD⟩
                · exact ⟨m, by omega, .inl rfl, fun k hl => hk _ k hl fun y => hD (.inl y)⟩
              · rintro ⟨j, hj, ht, hlt⟩
                by_cases hjm : j = m
                · subst hjm
                  by_cases hD : ∃ k < j, Touches N k w
                  · obtain ⟨i, hi, hiw⟩ := hD
                    exact .inl (.inl ⟨i, hi, hiw, fun k hl => hi.trans (hlt k hl)⟩)
                  · rcases ht with ht | ht
                    · subst ht
                      exact .inr ⟨rfl, fun y => y.elim hD hs⟩
                    · subst ht
                      exact .inl (.inr ⟨rfl, hD⟩)
                · exact .inl (.inl ⟨j, by omega, ht, hlt⟩)
            rw [← eD, ← eE]; exact h6

end Effects

/-- C80: after `_update_all_colors` every edge shows the present colour of its queue, every vertex with an edge its rim
colour, and every vertex with an edge its fill colour, except a vertex with a loop of type 0: such a vertex is
refilled if and only if one of its other edges has a smaller number than the loop. Nothing else changes. -/
theorem C80_update_all {C : ColCfg K} {N : NetCfg T R} (W : Wired C N) {qs : Nat → QS T} {g g' : GCol K}
    (h : updateAll C N qs g = .ok g') :
    (∀ k < N.nE, EdgeShown C N qs g' k) ∧
    (∀ v, (∃ k < N.nE, Touches N k v) →
      RimShown C N qs g' v ∧ (C.loopAt v = none → LoadShown C qs g' v) ∧ (Typed C N v → LoopShown C N qs g' v)) ∧
    (∀ v k, C.loopAt v = some k → (N.qc k).edge.etype = 0 →
      ((∃ j < k, Touches N j v) → LoadShown C qs g' v) ∧ ((∀ j < k, ¬ Touches N j v) → g'.vfill v = g.vfill v)) ∧
    (∀ v, (∀ k < N.nE, ¬ Touches N k v) → g'.vcol v = g.vcol v ∧ g'.vfill v = g.vfill v) ∧
    (∀ e, (∀ k < N.nE, ((N.qc k).edge.src, (N.qc k).edge.tgt) ≠ e) → g'.edge e = g.edge e) ∧ g'.prev = g.prev := by
  unfold updateAll at h
  cases h1 : updateFirst C N qs g N.nE with
  | error e => simp [h1] at h
  | ok p =>
    simp only [h1, Except.ok.injEq] at h
    subst h
    have hU := updateFirst_spec W N.nE le_rfl p h1
    refine ⟨hU.edges, fun v hv => ⟨hU.rim v hv fun k hk => ((W.loop v k).mp hk).1, fun hl => hU.plain v hl hv, ?_⟩, ?_, ?_,
      hU.others, hU.prev⟩
    · rintro ⟨k, hk, h0⟩ k' hk'
      rw [hk] at hk'; cases hk'
      exact hU.typed v k hk h0 ((W.loop v k).mp hk).1
    · intro v k hk h0
      have hkE := ((W.loop v k).mp hk).1
      obtain ⟨a, b⟩ := hU.zero v k hk h0
      refine ⟨fun ⟨j, hj, ht⟩ => a ⟨j, hj.trans hkE, ht, fun k' hk' => ?_⟩, fun hno => b ?_⟩
      · rw [hk] at hk'; cases hk'; exact hj
      · rintro ⟨j, -, ht, hlt⟩
        exact hno j (hlt k hk) ht
    · intro v hv
      exact hU.same v fun ⟨k, hk, ht⟩ => hv k hk ht

/-- No vertex but one has a loop of a type other than 0. -/
def OneTyped (C : ColCfg K) (N : NetCfg T R) : Prop := ∀ v w, Typed C N v → Typed C N w → v = w

/-- All colours are those that the queues report now: those of the edges, of the rims, and the fill colours of the
vertices that have no loop of a type other than 0 (of the others if there is only one). -/
structure Current (C : ColCfg K) (N : NetCfg T R) (qs : Nat → QS T) (g : GCol K) : Prop where
  edges : ∀ k < N.nE, EdgeShown C N qs g k
  rims : ∀ v, (∃ k < N.nE, Touches N k v) → RimShown C N qs g v
  loads : ∀ v, (∃ k < N.nE, Touches N k v) → ¬ Typed C N v → LoadShown C qs g v
  loops : OneTyped C N → ∀ v, Typed C N v → LoopShown C N qs g v

section Animation

variable {C : ColCfg K} {N : NetCfg T R} {qs qs' : Nat → QS T} {g g' : GCol K}

/-- All colours are right, except those that depend on the queues `S`, the load of the vertices `V` and the loops
`L`. -/
structure Right (C : ColCfg K) (N : NetCfg T R) (qs : Nat → QS T) (g : GCol K) (S V L : Nat → Prop) : Prop where
  edges : ∀ k < N.nE, ¬ S k → EdgeShown C N qs g k
  rims : ∀ v, (∃ k < N.nE, Touches N k v) → (∀ k, C.loopAt v = some k → ¬ S k) → RimShown C N qs g v
  loads : ∀ v, (∃ k < N.nE, Touches N k v) → ¬ Typed C N v → ¬ V v → LoadShown C qs g v
  loops : OneTyped C N → ∀ v k, C.loopAt v = some k → (N.qc k).edge.etype ≠ 0 → ¬ L k →
    C.queue N qs k 0 = .ok (g.vfill v)

variable {S V L S' V' L' : Nat → Prop}

theorem Right.mono (h : Right C N qs g S V L) (hS : ∀ x, S x → S' x) (hV : ∀ x, V x → V' x) (hL : ∀ x, L x → L' x) :
    Right C N qs g S' V' L' :=
  ⟨fun k hk hn => h.edges k hk fun y => hn (hS k y), fun v hv hn => h.rims v hv fun k hk y => hn k hk (hS k y),
    fun v hv ht hn => h.loads v hv ht fun y => hn (hV v y),
    fun ho v k hl ht hn => h.loops ho v k hl ht fun y => hn (hL k y)⟩

theorem Right.current (h : Right C N qs g (fun _ => False) (fun _ => False) (fun _ => False)) : Current C N qs g :=
  ⟨fun k hk => h.edges k hk id, fun v hv => h.rims v hv fun _ _ => id, fun v hv ht => h.loads v hv ht id,
    fun ho v ⟨k, hk, ht⟩ k' hk' => by rw [hk] at hk'; cases hk'; exact h.loops ho v k' hk ht id⟩

theorem Current.right (h : Current C N qs g) : Right C N qs g (fun _ => False) (fun _ => False) (fun _ => False) :=
  ⟨fun k hk _ => h.edges k hk, fun v hv _ => h.rims v hv, fun v hv ht _ => h.loads v hv ht,
    fun ho v k hk ht _ => h.loops ho v ⟨k, hk, ht⟩ k hk⟩

/-- What colours depend on. -/
def Alike (s s' : QS T) : Prop := s'.numSystem = s.numSystem ∧ s'.numServers = s.numServers

theorem queue_congr {k which : Nat} (h : Alike (qs k) (qs' k)) : C.queue N qs' k which = C.queue N qs k which := by
  unfold ColCfg.queue currentColour
  rw [h.1, h.2]

theorem load_congr {v : Nat} (h : ∀ e ∈ C.inEdges v, Alike (qs e) (qs' e)) : C.load qs' v = C.load qs v := by
  unfold ColCfg.load
  congr 1
  refine List.map_congr_left fun e he => ?_
  rw [(h e he).1, (h e he).2]

/-- When queues change, the colours that depend on them are out of date. -/
theorem Right.change (W : Wired C N) (h : Right C N qs g S V L) (hq : ∀ j, ¬ S' j → Alike (qs j) (qs' j)) :
    Right C N qs' g (fun j => S j ∨ S' j) (fun v => V v ∨ ∃ j, S' j ∧ (N.qc j).edge.tgt = v) (fun j => L j ∨ S' j) := by
  refine ⟨fun k hk hn => ?_, fun v hv hn => ⟨fun k hk => ?_, ?_⟩, fun v hv ht hn => ?_, fun ho v k hk ht hn => ?_⟩
  · have := h.edges k hk fun y => hn (.inl y)
    unfold EdgeShown at this ⊢
    rw [queue_congr (hq k fun y => hn (.inr y))]; exact this
  · rw [queue_congr (hq k fun y => hn k hk (.inr y))]
    exact (h.rims v hv fun k hk y => hn k hk (.inl y)).1 k hk
  · exact (h.rims v hv fun k hk y => hn k hk (.inl y)).2
  · have := h.loads v hv ht fun y => hn (.inl y)
    unfold LoadShown at this ⊢
    rw [load_congr fun e he => hq e fun y => hn (.inr ⟨e, y, ((W.inE v e).mp he).2⟩)]; exact this
  · rw [queue_congr (hq k fun y => hn (.inr y))]
    exact h.loops ho v k hk ht fun y => hn (.inl y)

theorem Right.paintEdge (W : Wired C N) (h : Right C N qs g S V L) {k w : Nat} (hk : k < N.nE)
    (hs : (N.qc k).edge.src ≠ (N.qc k).edge.tgt) (hp : paint C N qs g k w = .ok g') :
    Right C N qs g' (fun j => S j ∧ j ≠ k) (fun v => V v ∧ v ≠ (N.qc k).edge.tgt) (fun j => L j ∧ j ≠ k) ∧
      g'.prev = g.prev := by
  unfold paint at hp
  rw [if_neg hs] at hp
  cases h1 : Verif.paintEdge C N qs g k with
  | error e => simp [h1] at hp
  | ok g1 =>
    simp only [h1] at hp
    obtain ⟨e1, e2, e3, e4, e5⟩ := paintEdge_eff hs h1
    obtain ⟨d1, d2, d3, d4, d5, d6, d7⟩ := updateVertex_eff hp
    have hno : ∀ v, C.loopAt v ≠ some k := fun v hv => by
      obtain ⟨-, a, b⟩ := (W.loop v k).mp hv
      exact hs (a.trans b.symm)
    refine ⟨⟨fun j hj hn => ?_, fun v hv hn => ?_, fun v hv ht hn => ?_, fun ho v j hl ht hn => ?_⟩, d2.trans e3⟩
    · by_cases hjk : j = k
      · subst hjk; unfold EdgeShown at e1 ⊢; rw [d1]; exact e1
      · have := h.edges j hj fun y => hn ⟨y, hjk⟩
        unfold EdgeShown at this ⊢
        rw [d1, e2 _ fun he => hjk (W.inj j hj k hk (Prod.mk.inj he).1 (Prod.mk.inj he).2)]; exact this
    · have h2 := h.rims v hv fun j hj y => hn j hj ⟨y, fun z => hno v (z ▸ hj)⟩
      by_cases hvt : v = (N.qc k).edge.tgt
      · subst hvt
        refine ⟨fun j hj => ?_, d6⟩
        rw [d7 (by rw [hj]; simp), e4]; exact h2.1 j hj
      · unfold RimShown at h2 ⊢
        rw [(d3 v hvt).1, e4]; exact h2
    · by_cases hvt : v = (N.qc k).edge.tgt
      · subst hvt; exact d5 ht
      · have := h.loads v hv ht fun y => hn ⟨y, hvt⟩
        unfold LoadShown at this ⊢
        rw [(d3 v hvt).2, e5]; exact this
    · have := h.loops ho v j hl ht fun y => hn ⟨y, fun z => hno v (z ▸ hl)⟩
      by_cases hvt : v = (N.qc k).edge.tgt
      · rw [hvt, d4 ⟨j, hvt ▸ hl, ht⟩, e5, ← hvt]; exact this
      · rw [(d3 v hvt).2, e5]; exact this

theorem Right.paintLoop (W : Wired C N) (h : Right C N qs g S V L) {k w : Nat} (hk : k < N.nE)
    (hs : (N.qc k).edge.src = (N.qc k).edge.tgt) (hp : paint C N qs g k w = .ok g') :
    Right C N qs g' (fun j => S j ∧ j ≠ k) (fun v => V v ∨ (v = w ∧ (N.qc k).edge.etype ≠ 0))
      (fun j => L j ∧ (w = (N.qc k).edge.tgt → j ≠ k)) ∧
      g'.prev = g.prev := by
  unfold paint at hp
  rw [if_pos hs] at hp
  obtain ⟨e1, e2, e3, e4, e5, e6, e7⟩ := paintLoop_eff hs hp
  have hl : C.loopAt (N.qc k).edge.tgt = some k := (W.loop _ _).mpr ⟨hk, hs, rfl⟩
  refine ⟨⟨fun j hj hn => ?_, fun v hv hn => ?_, fun v hv ht hn => ?_, fun ho v j hlj ht hn => ?_⟩, e3⟩
  · by_cases hjk : j = k
    · subst hjk; exact e1
    · have := h.edges j hj fun y => hn ⟨y, hjk⟩
      unfold EdgeShown at this ⊢
      rw [e2 _ fun he => hjk (W.inj j hj k hk (Prod.mk.inj he).1 (Prod.mk.inj he).2)]; exact this
  · by_cases hvt : v = (N.qc k).edge.tgt
    · subst hvt
      refine ⟨fun j hj => ?_, fun hj => by rw [hl] at hj; simp at hj⟩
      rw [hl] at hj; cases hj; exact e5
    · have h2 := h.rims v hv fun j hj y => hn j hj ⟨y, fun z => hvt (((W.loop v j).mp hj).2.2.symm.trans (z ▸ rfl))⟩
      unfold RimShown at h2 ⊢
      rw [e4 v hvt]; exact h2
  · have := h.loads v hv ht fun y => hn (.inl y)
    unfold LoadShown at this ⊢
    by_cases h0 : (N.qc k).edge.etype = 0
    · rw [e6 h0]; exact this
    · rw [(e7 h0).1 v fun y => hn (.inr ⟨y, h0⟩)]; exact this
  · by_cases h0 : (N.qc k).edge.etype = 0
    · rw [e6 h0]
      exact h.loops ho v j hlj ht fun y => hn ⟨y, fun _ z => ht (z ▸ h0)⟩
    · have hv : v = (N.qc k).edge.tgt := ho v _ ⟨j, hlj, ht⟩ ⟨k, hl, h0⟩
      have hj : j = k := by rw [hv, hl] at hlj; cases hlj; rfl
      by_cases hw : w = (N.qc k).edge.tgt
      · rw [hj, hv, ← hw]; exact (e7 h0).2
      · rw [(e7 h0).1 v fun y => hw (y.symm.trans hv)]
        exact h.loops ho v j hlj ht fun y => hn ⟨y, fun z => absurd z hw⟩

/-- A loop of type 0 may be shown only after a queue that leads to the same vertex. -/
def Fits (N : NetCfg T R) (g : GCol K) (k : Nat) : Prop :=
  (N.qc k).edge.src = (N.qc k).edge.tgt → (N.qc k).edge.etype = 0 →
    ∃ p, g.prev = some p ∧ (N.qc p).edge.src ≠ (N.qc p).edge.tgt ∧ (N.qc p).edge.tgt = (N.qc k).edge.tgt

theorem Right.paintLast (W : Wired C N) (h : Right C N qs g S V L) {k : Nat} (hk : k < N.nE)
    (hz : (N.qc k).edge.src = (N.qc k).edge.tgt → (N.qc k).edge.etype ≠ 0)
    (hp : paint C N qs g k (N.qc k).edge.tgt = .ok g') :
    Right C N qs g' (fun j => S j ∧ j ≠ k) (fun v => V v ∧ v ≠ (N.qc k).edge.tgt) (fun j => L j ∧ j ≠ k) ∧
      g'.prev = g.prev := by
  by_cases hs : (N.qc k).edge.src = (N.qc k).edge.tgt
  · obtain ⟨h1, h2⟩ := h.paintLoop W hk hs hp
    have hT : Typed C N (N.qc k).edge.tgt := ⟨k, (W.loop _ _).mpr ⟨hk, hs, rfl⟩, hz hs⟩
    refine ⟨⟨h1.edges, h1.rims, fun v hv ht hn => h1.loads v hv ht ?_, fun ho v j hl ht hn => h1.loops ho v j hl ht ?_⟩, h2⟩
    · rintro (y | ⟨rfl, -⟩)
      · exact hn ⟨y, fun z => ht (z ▸ hT)⟩
      · exact ht hT
    · exact fun y => hn ⟨y.1, y.2 rfl⟩
  · exact h.paintEdge W hk hs hp

theorem Right.update (W : Wired C N) (h : Right C N qs g S V L) (hpr : ∀ p, g.prev = some p → p < N.nE) {k : Nat}
    (hk : k < N.nE) (hf : Fits N g k) (hp : showQueue C N qs g k = .ok g') :
    Right C N qs g' (fun j => S j ∧ j ≠ k) (fun v => V v ∧ v ≠ (N.qc k).edge.tgt) (fun j => L j ∧ j ≠ k) ∧
      g'.prev = some k := by
  unfold showQueue at hp
  cases hu : updateGraph C N qs g k with
  | error e => simp [hu] at hp
  | ok g1 =>
    simp only [hu, Except.ok.injEq] at hp
    subst hp
    suffices hR : Right C N qs g1 (fun j => S j ∧ j ≠ k) (fun v => V v ∧ v ≠ (N.qc k).edge.tgt)
        (fun j => L j ∧ j ≠ k) from ⟨⟨hR.edges, hR.rims, hR.loads, hR.loops⟩, rfl⟩
    unfold updateGraph at hu
    cases hpv : g.prev with
    | none =>
      simp only [hpv] at hu
      refine (h.paintLast W hk (fun hs h0 => ?_) hu).1
      obtain ⟨p, hp, -⟩ := hf hs h0
      rw [hpv] at hp; simp at hp
    | some p =>
      simp only [hpv] at hu
      cases h1 : paint C N qs g p (N.qc k).edge.tgt with
      | error e => simp [h1] at hu
      | ok g2 =>
        simp only [h1] at hu
        have hpE := hpr p hpv
        by_cases hps : (N.qc p).edge.src = (N.qc p).edge.tgt
        · obtain ⟨q1, q2⟩ := h.paintLoop W hpE hps h1
          obtain ⟨q3, -⟩ := q1.paintLast W hk (fun hs h0 => by
            obtain ⟨p', hp, hn, -⟩ := hf hs h0
            rw [hpv] at hp; cases hp; exact hn hps) hu
          exact q3.mono (fun x y => ⟨y.1.1, y.2⟩) (fun x y => ⟨y.1.resolve_right fun z => y.2 z.1, y.2⟩)
            fun x y => ⟨y.1.1, y.2⟩
        · obtain ⟨q1, q2⟩ := h.paintEdge W hpE hps h1
          by_cases hz : (N.qc k).edge.src = (N.qc k).edge.tgt ∧ (N.qc k).edge.etype = 0
          · obtain ⟨p', hp, -, ht⟩ := hf hz.1 hz.2
            rw [hpv] at hp; cases hp
            obtain ⟨q3, -⟩ := q1.paintLoop W hk hz.1 hu
            refine q3.mono (fun x y => ⟨y.1.1, y.2⟩) (fun x y => ?_) fun x y => ⟨y.1.1, y.2 rfl⟩
            rcases y with y | y
            · exact ⟨y.1, ht ▸ y.2⟩
            · exact absurd hz.2 y.2
          · obtain ⟨q3, -⟩ := q1.paintLast W hk (fun hs h0 => hz ⟨hs, h0⟩) hu
            exact q3.mono (fun x y => ⟨y.1.1, y.2⟩) (fun x y => ⟨y.1.1, y.2⟩) fun x y => ⟨y.1.1, y.2⟩

/-! ### The events -/

/-- The outcome of an event with colours is that of the event, if the colours could be computed. -/
def Agrees (x : Except SlowErr (Net T R × GCol K)) (y : Except DestErr (Net T R)) : Prop :=
  match x with
  | .ok p => y = .ok p.1
  | .error (.ev e) => y = .error e
  | .error (.col _) => True

theorem move_agrees {n : Net T R} {k1 e2 : Nat} {t : T} : Agrees (n.slowMove C N g k1 e2 t) (n.move N k1 e2 t) := by
  unfold Net.slowMove Net.move
  split
  · next h => simp [Agrees, h]
  · next h => simp [Agrees, h]
  · next s1 a h =>
    simp only [h]
    split
    · next h1 => simp [Agrees, h1]
    · next s2 h1 =>
      simp only [h1]
      split
      · simp [Agrees]
      · split
        · next h2 => simp only [Agrees]; rw [h2]
        · next h2 =>
          split
          · simp [Agrees]
          · simp only [Agrees]; rw [h2]

theorem departure_agrees {n : Net T R} {k1 : Nat} {t : T} :
    Agrees (n.slowDeparture C N g k1 t) (n.departure N k1 t) := by
  unfold Net.slowDeparture Net.departure
  split
  · next a h =>
    simp only [h]
    split
    · next h1 => simp [Agrees, h1]
    · next e2 d h1 =>
      simp only [h1]
      by_cases h2 : N.nE ≤ e2
      · rw [if_pos h2, if_pos h2]; simp [Agrees]
      · rw [if_neg h2, if_neg h2]
        split
        · next h3 =>
          split
          · next h4 => simp only [Agrees, h4]
          · next n1 h4 =>
            simp only [h4]
            split
            · next h5 => simp [Agrees, h5]
            · next h5 => simp [Agrees, h5]
        · next h3 =>
          have hm := move_agrees (C := C) (N := N) (g := g) (n := { n with unifCalls := n.unifCalls + d }) (k1 := k1)
            (e2 := e2) (t := t)
          split
          · next e h4 =>
            rw [h4] at hm
            cases e with
            | ev e => simp only [Agrees] at hm ⊢; rw [hm]
            | col e => simp [Agrees]
          · next n1 g1 h4 =>
            rw [h4] at hm
            simp only [Agrees] at hm
            rw [hm]
            simp only
            split
            · next h5 => simp [Agrees, h5]
            · next h5 => simp [Agrees, h5]
  · next h => simp only [Agrees]

theorem arrival_agrees {n : Net T R} {k1 : Nat} : Agrees (n.slowArrival C N g k1) (n.arrival N k1) := by
  unfold Net.slowArrival Net.arrival
  simp only
  split
  · next h => simp only [Agrees]; rw [h]
  · next s1 r h =>
    simp only [h]
    split
    · simp [Agrees]
    · split
      · split
        · next h1 => simp [Agrees, h1]
        · next h1 => simp [Agrees, h1]
      · simp [Agrees]

theorem step_agrees {n : Net T R} : Agrees (n.slowStep C N g) (n.step N) := by
  unfold Net.slowStep Net.step
  split
  · simp [Agrees]
  · split
    · next h => simp [Agrees, h]
    · next h => simp [Agrees, h]
    · next h q1t k1 h1 =>
      simp only [h1]
      split
      · simp [Agrees]
      · split
        · exact departure_agrees
        · split
          · exact arrival_agrees
          · simp [Agrees]

/-- The queues of a type other than NullQueue sit on edges of a type other than 0. -/
def NullIsZero (N : NetCfg T R) : Prop := ∀ k < N.nE, (N.qc k).kind ≠ .null → (N.qc k).edge.etype ≠ 0

theorem pushKey_qs {n n' : Net T R} {i k : Nat} (h : n.pushKey N i k = .ok n') : n'.qs = n.qs := by
  unfold Net.pushKey at h
  split at h
  · simp at h
  · simp only [Except.ok.injEq] at h; subst h; rfl

theorem pushBoth_qs {n n' : Net T R} {k1 e2 : Nat} {t : T} (h : n.pushBoth N k1 e2 t = .ok n') : n'.qs = n.qs := by
  unfold Net.pushBoth at h
  split at h
  · cases h1 : n.pushKey N (2 * n.numEvents) e2 with
    | error e => simp [h1] at h
    | ok n1 =>
      simp only [h1] at h
      split at h
      · rw [pushKey_qs h, pushKey_qs h1]
      · simp only [Except.ok.injEq] at h; subst h; exact pushKey_qs h1
  · split at h
    · exact pushKey_qs h
    · simp only [Except.ok.injEq] at h; subst h; rfl

/-- What is shown, and whom the next update will repaint. -/
def Fine (C : ColCfg K) (N : NetCfg T R) (n : Net T R) (g : GCol K) : Prop :=
  Current C N n.qs g ∧ ∀ p, g.prev = some p → p < N.nE

theorem move_fine (W : Wired C N) (hz : NullIsZero N) {n n' : Net T R} (h : Fine C N n g) {k1 e2 : Nat} {t : T}
    (hk : k1 < N.nE) (hs : (N.qc k1).kind ≠ .null) (he : e2 < N.nE) (hout : (N.qc e2).edge.src = (N.qc k1).edge.tgt)
    (hr : n.slowMove C N g k1 e2 t = .ok (n', g')) : Fine C N n' g' := by
  unfold Net.slowMove at hr
  split at hr
  · simp at hr
  · simp at hr
  · next s1 a h1 =>
    simp only at hr
    split at hr
    · simp at hr
    · next s2 h2 =>
      simp only [Net.setNum, Net.setQ] at hr
      split at hr
      · simp at hr
      · next g1 h3 =>
        split at hr
        · simp at hr
        · next s2' r h4 =>
          split at hr
          · simp at hr
          · next g2 h5 =>
            simp only [Except.ok.injEq, Prod.mk.injEq] at hr
            obtain ⟨rfl, rfl⟩ := hr
            have c1 := h.1.right.change W (S' := fun j => j = k1 ∨ j = e2)
              (qs' := Function.update (Function.update n.qs k1 s1) e2 s2) fun j hj => by
                rw [Function.update_of_ne (fun y => hj (.inr y)), Function.update_of_ne (fun y => hj (.inl y))]
                exact ⟨rfl, rfl⟩
            obtain ⟨c2, p2⟩ := c1.update W h.2 hk (fun _ h0 => absurd h0 (hz k1 hk hs)) h3
            have c3 := c2.change W (S' := fun j => j = e2)
              (qs' := Function.update (Function.update (Function.update n.qs k1 s1) e2 s2) e2 s2') fun j hj => by
                rw [Function.update_of_ne hj s2' (Function.update (Function.update n.qs k1 s1) e2 s2)]
                exact ⟨rfl, rfl⟩
            have hp2 : ∀ p, g1.prev = some p → p < N.nE := fun p hp => by rw [p2] at hp; cases hp; exact hk
            have hfit : Fits N g1 e2 := fun hs' h0 => by
              refine ⟨k1, p2, fun hl => ?_, hout.symm.trans hs'⟩
              have : k1 = e2 := W.inj k1 hk e2 he (hl.trans hout.symm) (hout.symm.trans hs')
              exact hz k1 hk hs (this ▸ h0)
            obtain ⟨c4, p4⟩ := c3.update W hp2 he hfit h5
            refine ⟨(c4.mono ?_ ?_ ?_).current, fun p hp => ?_⟩
            · rintro x ⟨(⟨(y | y | y), y'⟩ | y), y2⟩
              · exact y
              · exact y' y
              · exact y2 y
              · exact y2 y
            · rintro x ⟨(⟨(y | ⟨j, (rfl | rfl), rfl⟩), y'⟩ | ⟨j, rfl, rfl⟩), y2⟩
              · exact y
              · exact y' rfl
              · exact y2 rfl
              · exact y2 rfl
            · rintro x ⟨(⟨(y | y | y), y'⟩ | y), y2⟩
              · exact y
              · exact y' y
              · exact y2 y
              · exact y2 y
            · rw [p4] at hp; cases hp; exact he

theorem delay_alike {c : QCfg T} {s s' : QS T} {t : Option T} (h : delayService c s t = .ok s') : Alike s s' := by
  unfold delayService at h
  split at h
  · simp only [Except.ok.injEq] at h; subst h; exact ⟨rfl, rfl⟩
  · split at h
    · split at h
      · simp at h
      · simp at h
      · simp only at h
        split at h
        · simp at h
        · simp only [Except.ok.injEq] at h; subst h; exact ⟨rfl, rfl⟩
    · simp only [Except.ok.injEq] at h; subst h; exact ⟨rfl, rfl⟩

theorem bump_alike (s : QS T) (k : Nat) : Alike s (bumpHead s k) := by
  unfold bumpHead; split <;> exact ⟨rfl, rfl⟩

theorem blocked_alike {n n' : Net T R} {k1 e2 : Nat} (h : n.blocked N k1 e2 = .ok n') (j : Nat) :
    Alike (n.qs j) (n'.qs j) := by
  unfold Net.blocked at h
  simp only at h
  split at h
  · simp at h
  · next s1 h1 =>
    simp only [Except.ok.injEq] at h
    subst h
    have h2 := delay_alike h1
    have hj : ∀ i, Alike (n.qs i)
        (Function.update n.qs e2 { n.qs e2 with numBlocked := (n.qs e2).numBlocked + 1 } i) := fun i => by
      by_cases hi : i = e2
      · subst hi; simp only [Function.update_self]; exact ⟨rfl, rfl⟩
      · rw [Function.update_of_ne hi]; exact ⟨rfl, rfl⟩
    have hb := bump_alike (Function.update n.qs e2 { n.qs e2 with numBlocked := (n.qs e2).numBlocked + 1 } k1) 1
    simp only [Net.setQ, Function.update_self] at h2 ⊢
    by_cases hjk : j = k1
    · subst hjk
      rw [Function.update_self]
      exact ⟨h2.1.trans (hb.1.trans (hj j).1), h2.2.trans (hb.2.trans (hj j).2)⟩
    · rw [Function.update_of_ne hjk, Function.update_of_ne hjk]
      exact hj j

theorem Fine.alike (W : Wired C N) {n n' : Net T R} (h : Fine C N n g) (ha : ∀ j, Alike (n.qs j) (n'.qs j)) :
    Fine C N n' g := by
  refine ⟨((h.1.right.change W (S' := fun _ => False) fun j _ => ha j).mono ?_ ?_ ?_).current, h.2⟩
  · rintro x (y | y) <;> exact y
  · rintro x (y | ⟨j, y, -⟩) <;> exact y
  · rintro x (y | y) <;> exact y

theorem departure_fine (W : Wired C N) (hN : N.OkA) (hz : NullIsZero N) {n n' : Net T R} (h : Fine C N n g)
    (hp : ∀ v, (n.probs v).length = (N.outEdges v).length) {k1 : Nat} {t : T}
    (hk : k1 < N.nE) (hs : (N.qc k1).kind ≠ .null) (hr : n.slowDeparture C N g k1 t = .ok (n', g')) : Fine C N n' g' := by
  unfold Net.slowDeparture at hr
  split at hr
  · next a ha =>
    obtain ⟨e, d, h1, h2⟩ := destination_okA hN hp hk hs a
    rw [h1] at hr
    simp only at hr
    rw [if_neg (not_le.mpr (hN.outLt k1 hk hs e h2))] at hr
    have hF : Fine C N { n with unifCalls := n.unifCalls + d } g := h
    split at hr
    · split at hr
      · simp at hr
      · next n1 h3 =>
        split at hr
        · simp at hr
        · next n2 h4 =>
          simp only [Except.ok.injEq, Prod.mk.injEq] at hr
          obtain ⟨rfl, rfl⟩ := hr
          refine hF.alike W fun j => ?_
          rw [pushBoth_qs h4]; exact blocked_alike h3 j
    · split at hr
      · simp at hr
      · next n1 g1 h3 =>
        split at hr
        · simp at hr
        · next n2 h4 =>
          simp only [Except.ok.injEq, Prod.mk.injEq] at hr
          obtain ⟨rfl, rfl⟩ := hr
          have := move_fine W hz hF hk hs (hN.outLt k1 hk hs e h2) (W.out k1 hk e h2) h3
          unfold Fine at this ⊢
          rw [pushBoth_qs h4]; exact this
  · simp at hr

theorem arrival_fine (W : Wired C N) (hz : NullIsZero N) {n n' : Net T R} (h : Fine C N n g) {k1 : Nat}
    (hk : k1 < N.nE) (hs : (N.qc k1).kind ≠ .null) (hr : n.slowArrival C N g k1 = .ok (n', g')) : Fine C N n' g' := by
  unfold Net.slowArrival at hr
  simp only at hr
  split at hr
  · simp at hr
  · next s1 r h1 =>
    split at hr
    · simp at hr
    · next g1 h2 =>
      have key : Current C N (Function.update n.qs k1 s1) g1 ∧ g1.prev = some k1 := by
        have c1 := h.1.right.change W (S' := fun j => j = k1) (qs' := Function.update n.qs k1 s1) fun j hj => by
          rw [Function.update_of_ne hj]; exact ⟨rfl, rfl⟩
        obtain ⟨c2, p2⟩ := c1.update W h.2 hk (fun _ h0 => absurd h0 (hz k1 hk hs)) h2
        refine ⟨(c2.mono ?_ ?_ ?_).current, p2⟩
        · rintro x ⟨(y | y), y2⟩
          · exact y
          · exact y2 y
        · rintro x ⟨(y | ⟨j, rfl, rfl⟩), y2⟩
          · exact y
          · exact y2 rfl
        · rintro x ⟨(y | y), y2⟩
          · exact y
          · exact y2 y
      have hp : ∀ p, g1.prev = some p → p < N.nE := fun p hp => by rw [key.2] at hp; cases hp; exact hk
      split at hr
      · split at hr
        · simp at hr
        · next n2 h3 =>
          simp only [Except.ok.injEq, Prod.mk.injEq] at hr
          obtain ⟨rfl, rfl⟩ := hr
          unfold Fine
          rw [pushKey_qs h3]; exact ⟨key.1, hp⟩
      · simp only [Except.ok.injEq, Prod.mk.injEq] at hr
        obtain ⟨rfl, rfl⟩ := hr
        exact ⟨key.1, hp⟩

theorem simple_of_desc {k : Nat} {s : QS T} {i : Nat}
    (h : nextEventDescription (N.qc k) s = i) (hi : i ≠ 0) : (N.qc k).kind ≠ .null := by
  intro h0; refine hi ?_
  rw [← h]; simp [nextEventDescription, h0]

theorem step_fine (W : Wired C N) (hN : N.OkA) (hz : NullIsZero N) {n n' : Net T R} (h : Fine C N n g)
    (hp : ∀ v, (n.probs v).length = (N.outEdges v).length) (hr : n.slowStep C N g = .ok (n', g')) : Fine C N n' g' := by
  unfold Net.slowStep at hr
  split at hr
  · simp only [Except.ok.injEq, Prod.mk.injEq] at hr
    obtain ⟨rfl, rfl⟩ := hr
    exact h
  · split at hr
    · simp at hr
    · simp at hr
    · next hh q1t k1 h1 =>
      split at hr
      · simp at hr
      · next hk =>
        simp only at hr
        split at hr
        · next h2 =>
          exact departure_fine W hN hz (n := { n with heap := hh, t := q1t, numEvents := n.numEvents + 1 }) h hp
            (not_le.mp hk) (simple_of_desc h2 (by simp)) hr
        · split at hr
          · next h2 =>
            exact arrival_fine W hz (n := { n with heap := hh, t := q1t, numEvents := n.numEvents + 1 }) h
              (not_le.mp hk) (simple_of_desc h2 (by simp)) hr
          · simp only [Except.ok.injEq, Prod.mk.injEq] at hr
            obtain ⟨rfl, rfl⟩ := hr
            exact h

/-! ### Colours can always be computed -/

/-- Every queue has a number of servers that is not negative. -/
def Staffed (N : NetCfg T R) (qs : Nat → QS T) : Prop := ∀ k < N.nE, ∀ m, (qs k).numServers = .fin m → 0 ≤ m

/-- All base colours have four components, the sensitivities are positive, and `max_servers` of ResourceQueues is
finite. -/
structure Paints [IsStrictOrderedRing K] (C : ColCfg K) (N : NetCfg T R) : Prop where
  edge : ∀ k < N.nE, 4 ≤ (C.cols k).edge.length
  fill : ∀ k < N.nE, 4 ≤ (C.cols k).vertexFill.length
  sens : ∀ k < N.nE, 0 < C.sens k
  vertex : 4 ≤ C.vfill.length
  loop : ∀ k < N.nE, (N.qc k).kind = .resource → 4 ≤ (C.cols k).edgeLoop.length
  stock : ∀ k < N.nE, (N.qc k).kind = .resource → ∃ m, (N.qc k).maxServers = .fin m

variable [IsStrictOrderedRing K]

theorem queue_total (hP : Paints C N) (hs : Staffed N qs) {k : Nat} (hk : k < N.nE) (which : Nat) :
    ∃ l, C.queue N qs k which = .ok l := by
  unfold ColCfg.queue currentColour
  have key : ∃ l, serverColour (C.cols k) (decide ((N.qc k).edge.src = (N.qc k).edge.tgt)) (C.sens k)
      (qs k).numServers (qs k).numSystem which = .ok l := by
    unfold serverColour
    split
    · exact ⟨_, rfl⟩
    · split
      · exact ⟨_, rfl⟩
      · have : ∃ x, serverShade (C.sens k) (qs k).numServers (qs k).numSystem = .ok x := by
          unfold serverShade
          split
          · next m hm =>
            have h0 : (0 : K) ≤ (m : K) := by exact_mod_cast hs k hk m hm
            have h1 : 0 < C.sens k * (m : K) + 1 := by have := mul_nonneg (hP.sens k hk).le h0; linarith
            simp only
            rw [if_neg h1.ne']; exact ⟨_, rfl⟩
          · rw [if_neg (hP.sens k hk).ne']; exact ⟨_, rfl⟩
        obtain ⟨x, hx⟩ := this
        rw [hx]
        simp only
        split
        · unfold shaded; rw [if_neg (by have := hP.fill k hk; omega)]; exact ⟨_, rfl⟩
        · unfold shaded; rw [if_neg (by have := hP.edge k hk; omega)]; exact ⟨_, rfl⟩
  cases h : (N.qc k).kind with
  | server => simpa only [h] using key
  | loss => simpa only [h] using key
  | null =>
    simp only [nullColour]
    split
    · exact ⟨_, rfl⟩
    · split <;> exact ⟨_, rfl⟩
  | resource =>
    obtain ⟨m, hm⟩ := hP.stock k hk h
    have hsh : ∃ x : K, resourceShade (qs k).numServers (N.qc k).maxServers = .ok x := by
      rw [hm]; unfold resourceShade; split <;> simp_all
    obtain ⟨x, hx⟩ := hsh
    unfold resourceColour
    rw [hx]
    have h1 := hP.loop k hk h
    have h2 := hP.fill k hk
    have h3 := hP.edge k hk
    simp only [shaded9]
    split
    · exact ⟨_, rfl⟩
    · split
      · rw [if_neg (by omega)]; exact ⟨_, rfl⟩
      · split
        · rw [if_neg (by omega)]; exact ⟨_, rfl⟩
        · rw [if_neg (by omega)]; exact ⟨_, rfl⟩

theorem capSum_nonneg : ∀ (l : List (Int × Cap)) (c : Cap), (∀ m, c = .fin m → 0 ≤ m) →
    (∀ p ∈ l, ∀ m, p.2 = .fin m → 0 ≤ m) → ∀ m, l.foldl (fun (cap : Cap) p => cap.add p.2) c = .fin m → 0 ≤ m
  | [], c, hc, _, m, h => hc m h
  | p :: l, c, hc, hl, m, h => by
    refine capSum_nonneg l _ (fun m' hm' => ?_) (fun q hq => hl q (by simp [hq])) m h
    simp only at hm'
    cases c with
    | inf => simp [Cap.add] at hm'
    | fin x =>
      cases hp : p.2 with
      | inf => rw [hp] at hm'; simp [Cap.add] at hm'
      | fin y =>
        rw [hp] at hm'
        simp only [Cap.add, Cap.fin.injEq] at hm'
        have := hc x rfl
        have := hl p (by simp) y hp
        omega

theorem load_total (W : Wired C N) (hP : Paints C N) (hs : Staffed N qs) (v : Nat) : ∃ l, C.load qs v = .ok l := by
  unfold ColCfg.load vertexColour
  simp only
  split
  · unfold shaded; rw [if_neg (by have := hP.vertex; omega)]; exact ⟨_, rfl⟩
  · next m hm =>
    have h0 : 0 ≤ m := by
      refine capSum_nonneg _ _ (by simp) ?_ m hm
      intro p hp
      obtain ⟨e, he, rfl⟩ := List.mem_map.mp hp
      exact hs e ((W.inE v e).mp he).1
    have h1 : (0 : K) ≤ (m : K) := by exact_mod_cast h0
    rw [if_neg (by have : (0 : K) < 2 * (m : K) + 2 := by linarith
                   exact this.ne')]
    unfold shaded; rw [if_neg (by have := hP.vertex; omega)]; exact ⟨_, rfl⟩

theorem updateVertex_total (W : Wired C N) (hP : Paints C N) (hs : Staffed N qs) (g : GCol K) (v : Nat) :
    ∃ g', updateVertex C N qs g v = .ok g' := by
  obtain ⟨x, hx⟩ := load_total W hP hs v
  unfold updateVertex
  rw [hx]
  split
  · exact ⟨_, rfl⟩
  · split <;> exact ⟨_, rfl⟩

theorem paintLoop_total (hP : Paints C N) (hs : Staffed N qs) (g : GCol K) {k : Nat} (hk : k < N.nE)
    (w : Nat) : ∃ g', Verif.paintLoop C N qs g k w = .ok g' := by
  obtain ⟨x0, h0⟩ := queue_total hP hs hk 0
  obtain ⟨x1, h1⟩ := queue_total hP hs hk 1
  obtain ⟨x2, h2⟩ := queue_total hP hs hk 2
  unfold Verif.paintLoop
  simp only [h0, h1, h2]
  split <;> exact ⟨_, rfl⟩

theorem paintEdge_total (hP : Paints C N) (hs : Staffed N qs) (g : GCol K) {k : Nat} (hk : k < N.nE) :
    ∃ g', Verif.paintEdge C N qs g k = .ok g' := by
  obtain ⟨x0, h0⟩ := queue_total hP hs hk 0
  unfold Verif.paintEdge
  simp only [h0]
  exact ⟨_, rfl⟩

theorem paint_total (W : Wired C N) (hP : Paints C N) (hs : Staffed N qs) (g : GCol K) {k : Nat}
    (hk : k < N.nE) (w : Nat) : ∃ g', paint C N qs g k w = .ok g' := by
  unfold paint
  split
  · exact paintLoop_total hP hs g hk w
  · obtain ⟨g1, h1⟩ := paintEdge_total hP hs g hk
    rw [h1]; exact updateVertex_total W hP hs g1 _

theorem showQueue_total (W : Wired C N) (hP : Paints C N) (hs : Staffed N qs) {g : GCol K}
    (hp : ∀ p, g.prev = some p → p < N.nE) {k : Nat} (hk : k < N.nE) :
    ∃ g', showQueue C N qs g k = .ok g' ∧ g'.prev = some k := by
  unfold showQueue updateGraph
  cases hpv : g.prev with
  | none =>
    obtain ⟨g1, h1⟩ := paint_total W hP hs g hk (N.qc k).edge.tgt
    simp only [h1]; exact ⟨_, rfl, rfl⟩
  | some p =>
    obtain ⟨g1, h1⟩ := paint_total W hP hs g (hp p hpv) (N.qc k).edge.tgt
    obtain ⟨g2, h2⟩ := paint_total W hP hs g1 hk (N.qc k).edge.tgt
    simp only [h1, h2]; exact ⟨_, rfl, rfl⟩

theorem touch_total (W : Wired C N) (hP : Paints C N) (hs : Staffed N qs) (v : Nat) (p : GCol K × (Nat → Bool)) :
    ∃ p', touchVertex C N qs v p = .ok p' := by
  unfold touchVertex
  split
  · obtain ⟨g1, h1⟩ := updateVertex_total W hP hs p.1 v
    rw [h1]; exact ⟨_, rfl⟩
  · exact ⟨_, rfl⟩

theorem updateFirst_total (W : Wired C N) (hP : Paints C N) (hs : Staffed N qs) (g : GCol K) :
    ∀ m ≤ N.nE, ∃ p, updateFirst C N qs g m = .ok p
  | 0, _ => ⟨_, rfl⟩
  | m + 1, hm => by
    obtain ⟨p, hp⟩ := updateFirst_total W hP hs g m (by omega)
    unfold updateFirst
    rw [hp]
    simp only [allStep]
    split
    · obtain ⟨g1, h1⟩ := paintLoop_total hP hs p.1 (k := m) (by omega) (N.qc m).edge.tgt
      rw [h1]; exact ⟨_, rfl⟩
    · obtain ⟨g1, h1⟩ := paintEdge_total hP hs p.1 (k := m) (by omega)
      rw [h1]
      simp only
      obtain ⟨p2, h2⟩ := touch_total W hP hs (N.qc m).edge.tgt (g1, p.2)
      rw [h2]
      exact touch_total W hP hs _ p2

/-- A number of servers that is not negative. -/
def NN (n : Cap) : Prop := ∀ m, n = .fin m → 0 ≤ m

theorem queueAction_servers {c : QCfg T} {s : QS T} {a : Agent T} {i : Nat} (h : NN s.numServers) :
    NN (queueAction c s a i).1.numServers := by
  unfold queueAction
  simp only
  split
  · split
    · exact h
    · split
      · next hlt =>
        intro m hm
        simp only at hm
        cases hn : s.numServers with
        | inf => rw [hn] at hm; simp [Cap.addInt] at hm
        | fin x =>
          rw [hn] at hm hlt
          simp only [Cap.addInt, Cap.fin.injEq, Cap.lt, decide_eq_true_eq] at hm hlt
          omega
      · exact h
  · exact h

theorem addArrivalAgent_servers {c : QCfg T} {s s' : QS T} {a : Agent T} (h : addArrivalAgent c s a = .ok s') :
    s'.numServers = s.numServers := by
  unfold addArrivalAgent at h
  split at h
  · simp only [Except.ok.injEq] at h; subst h; split <;> rfl
  · split at h
    · simp at h
    · simp only [Except.ok.injEq] at h; subst h; rfl

theorem addArrival_servers {c : QCfg T} {s s' : QS T} (h : addArrival c s = .ok s') :
    s'.numServers = s.numServers := by
  unfold addArrival at h
  split at h
  · simp only [Except.ok.injEq] at h; subst h; rfl
  · split at h
    · simp only at h
      split at h
      · simp only [Except.ok.injEq] at h; subst h; rfl
      · split at h
        · simp at h
        · simp only [Except.ok.injEq] at h; subst h
          unfold bumpTime; simp only; split <;> rfl
    · simp only [Except.ok.injEq] at h; subst h; rfl

theorem ifArrival_servers {c : QCfg T} {b : Bool} {s s' : QS T}
    (h : (if b then addArrival c s else .ok s) = .ok s') : s'.numServers = s.numServers := by
  cases b with
  | true => exact addArrival_servers h
  | false => simp only [Bool.false_eq_true, if_false, Except.ok.injEq] at h; rw [h]

theorem serviceFromQueue_servers {c : QCfg T} {s s' : QS T} (hn : NN s.numServers)
    (h : serviceFromQueue c s = .ok s') : NN s'.numServers := by
  unfold serviceFromQueue at h
  split at h
  · simp at h
  · simp only at h
    split at h
    · simp at h
    · simp only [Except.ok.injEq] at h; subst h
      refine queueAction_servers (c := c) ?_
      simp only
      split <;> exact hn

theorem ifService_servers {c : QCfg T} {p : Prop} [Decidable p] {s s' : QS T} (hn : NN s.numServers)
    (h : (if p then serviceFromQueue c s else .ok s) = .ok s') : NN s'.numServers := by
  by_cases hp : p
  · rw [if_pos hp] at h; exact serviceFromQueue_servers hn h
  · rw [if_neg hp] at h; simp only [Except.ok.injEq] at h; exact h ▸ hn

theorem ifInactive_servers (b : Bool) (s : QS T) : (if b then setInactive s else s).numServers = s.numServers := by
  cases b <;> rfl

theorem ifInactive_nn {b : Bool} {s : QS T} (h : NN s.numServers) :
    NN (if b then setInactive s else s).numServers := by
  cases b <;> exact h

theorem updateTime_servers (s : QS T) : (updateTime s).numServers = s.numServers := by
  unfold updateTime; split <;> rfl

theorem departEvent_servers {c : QCfg T} {s s' : QS T} {r : Option (Agent T)} (hn : NN s.numServers)
    (h : departEvent c s = .ok (s', r)) : NN s'.numServers := by
  unfold departEvent at h
  split at h
  · simp at h
  · simp at h
  · simp only at h
    split at h
    · simp at h
    · next s2 h2 =>
      simp only [Except.ok.injEq, Prod.mk.injEq] at h
      obtain ⟨rfl, -⟩ := h
      refine queueAction_servers (c := c) ?_
      refine ifService_servers ?_ h2
      split <;> exact hn

theorem arriveEvent_servers {c : QCfg T} {s s' : QS T} {r : Option (Agent T)} (hn : NN s.numServers)
    (h : arriveEvent c s = .ok (s', r)) : NN s'.numServers := by
  unfold arriveEvent at h
  split at h
  · simp at h
  · simp at h
  · simp only at h
    split at h
    · simp at h
    · next s2 h2 =>
      have h3 : NN s2.numServers := by rw [ifArrival_servers h2]; exact hn
      cases hc : s2.collectData <;> simp only [hc, if_true, Bool.false_eq_true, if_false] at h <;>
        repeat' split at h
      all_goals try (simp at h; done)
      all_goals
        simp only [Except.ok.injEq, Prod.mk.injEq] at h
        obtain ⟨rfl, -⟩ := h
        rw [updateTime_servers]
        refine queueAction_servers (c := c) ?_
        first
          | exact h3
          | (refine queueAction_servers (c := c) ?_; exact h3)

theorem blockEvent_servers {c : QCfg T} {s s' : QS T} {r : Option (Agent T)}
    (h : blockEvent c s = .ok (s', r)) : s'.numServers = s.numServers := by
  unfold blockEvent at h
  split at h
  · simp at h
  · simp at h
  · simp only at h
    split at h
    · simp at h
    · next s2 h2 =>
      have h3 : s2.numServers = s.numServers := by rw [ifArrival_servers h2]
      simp only [Except.ok.injEq, Prod.mk.injEq] at h
      obtain ⟨rfl, -⟩ := h
      simp only [updateTime]
      split <;> exact h3

theorem baseEvent_servers {c : QCfg T} {s s' : QS T} {r : Option (Agent T)} (hn : NN s.numServers)
    (h : baseEvent c s = .ok (s', r)) : NN s'.numServers := by
  unfold baseEvent at h
  split at h
  · exact departEvent_servers hn h
  · split at h
    · exact arriveEvent_servers hn h
    · simp only [Except.ok.injEq, Prod.mk.injEq] at h; exact h.1 ▸ hn

theorem lossEvent_servers {c : QCfg T} {s s' : QS T} {r : Option (Agent T)} (hn : NN s.numServers)
    (h : lossEvent c s = .ok (s', r)) : NN s'.numServers := by
  unfold lossEvent at h
  split at h
  · exact baseEvent_servers hn h
  · split at h
    · split at h
      · exact baseEvent_servers hn h
      · rw [blockEvent_servers h]; exact hn
    · simp only [Except.ok.injEq, Prod.mk.injEq] at h; exact h.1 ▸ hn

/-- No event makes the number of servers negative. -/
theorem nextEvent_servers {c : QCfg T} {s s' : QS T} {r : Option (Agent T)} (hn : NN s.numServers)
    (h : nextEvent c s = .ok (s', r)) : NN s'.numServers := by
  unfold nextEvent at h
  split at h
  · exact baseEvent_servers hn h
  · exact lossEvent_servers hn h
  · simp only [Except.ok.injEq, Prod.mk.injEq] at h; exact h.1 ▸ hn
  · unfold resourceEvent at h
    split at h
    · split at h
      · exact lossEvent_servers hn h
      · split at h
        · split at h
          · unfold depositEvent at h
            split at h
            · simp at h
            · simp at h
            · simp only [Except.ok.injEq, Prod.mk.injEq] at h
              obtain ⟨rfl, -⟩ := h
              rw [updateTime_servers]
              have key : NN (s.numServers.addInt 1) := by
                intro m hm
                cases hx : s.numServers with
                | inf => rw [hx] at hm; simp [Cap.addInt] at hm
                | fin x =>
                  rw [hx] at hm
                  simp only [Cap.addInt, Cap.fin.injEq] at hm
                  have := hn x hx
                  omega
              cases hd : s.collectData <;> simpa [resourceSetServers, hd] using key
          · split at h
            · exact lossEvent_servers hn h
            · unfold resourceBlock at h
              split at h
              · simp at h
              · simp at h
              · simp only [Except.ok.injEq, Prod.mk.injEq] at h
                obtain ⟨rfl, -⟩ := h
                rw [updateTime_servers]
                cases hd : s.collectData <;> simpa [hd] using hn
        · simp only [Except.ok.injEq, Prod.mk.injEq] at h; exact h.1 ▸ hn
    · exact lossEvent_servers hn h

theorem Staffed.set (h : Staffed N qs) {k : Nat} {s : QS T} (hs : k < N.nE → NN s.numServers) :
    Staffed N (Function.update qs k s) := by
  intro j hj m hm
  by_cases hjk : j = k
  · subst hjk; rw [Function.update_self] at hm; exact hs hj m hm
  · rw [Function.update_of_ne hjk] at hm; exact h j hj m hm

/-- What the theorems below say about an event with colours: no colour is missing, and servers are kept. -/
def Good (N : NetCfg T R) (x : Except SlowErr (Net T R × GCol K)) : Prop :=
  (∀ e, x ≠ .error (.col e)) ∧ ∀ p, x = .ok p → Staffed N p.1.qs

theorem move_good (W : Wired C N) (hP : Paints C N) {n : Net T R} (hs : Staffed N n.qs) {g : GCol K}
    (hp : ∀ p, g.prev = some p → p < N.nE) {k1 e2 : Nat} {t : T} (hk : k1 < N.nE) (he : e2 < N.nE) :
    Good N (n.slowMove C N g k1 e2 t) := by
  unfold Net.slowMove
  split
  · simp [Good]
  · simp [Good]
  · next s1 a h1 =>
    have hs1 := hs.set (k := k1) fun hj => nextEvent_servers (hs k1 hk) h1
    simp only
    split
    · simp [Good]
    · next s2 h2 =>
      have hs2 := hs1.set (k := e2) (s := s2) fun hj => by
        rw [addArrivalAgent_servers h2]; exact hs1 e2 he
      simp only [Net.setNum, Net.setQ]
      obtain ⟨g1, h3, p3⟩ := showQueue_total W hP hs2 hp hk
      rw [h3]
      simp only
      split
      · simp [Good]
      · next s2' r h4 =>
        have hs3 := hs2.set (k := e2) (s := s2') fun hj => nextEvent_servers (ifInactive_nn (hs2 e2 he)) h4
        obtain ⟨g2, h6, -⟩ := showQueue_total W hP hs3 (g := g1) (fun p hp => by
          rw [p3] at hp; cases hp; exact hk) he
        rw [h6]
        refine ⟨by simp, fun p hp => ?_⟩
        simp only [Except.ok.injEq] at hp
        subst hp; exact hs3

theorem Good.push {x : Except SlowErr (Net T R × GCol K)} (h : Good N x)
    {f : Net T R → Except DestErr (Net T R)} (hf : ∀ n n', f n = .ok n' → n'.qs = n.qs) :
    Good N (match x with
      | .error e => .error e
      | .ok (n, g) =>
        match f n with
        | .error e => .error (.ev e)
        | .ok n => .ok (n, g)) := by
  cases x with
  | error e => exact h
  | ok p =>
    simp only
    split
    · simp [Good]
    · next n' hn =>
      refine ⟨by simp, fun q hq => ?_⟩
      simp only [Except.ok.injEq] at hq
      subst hq
      simp only [hf _ _ hn]
      exact h.2 p rfl

theorem departure_good (W : Wired C N) (hP : Paints C N) {n : Net T R} (hs : Staffed N n.qs) {g : GCol K}
    (hp : ∀ p, g.prev = some p → p < N.nE) {k1 : Nat} {t : T} (hk : k1 < N.nE) :
    Good N (n.slowDeparture C N g k1 t) := by
  unfold Net.slowDeparture
  split
  · split
    · simp [Good]
    · next e2 d h1 =>
      simp only
      split
      · simp [Good]
      · next he =>
        split
        · cases hb : Net.blocked N { n with unifCalls := n.unifCalls + d } k1 e2 with
          | error e => simp [Good]
          | ok n1 =>
            simp only
            split
            · simp [Good]
            · next n2 h4 =>
              refine ⟨by simp, fun q hq => ?_⟩
              simp only [Except.ok.injEq] at hq
              subst hq
              simp only [pushBoth_qs h4]
              intro j hj m hm
              rw [(blocked_alike hb j).2] at hm
              exact hs j hj m hm
        · exact (move_good W hP (n := { n with unifCalls := n.unifCalls + d }) hs hp hk (not_le.mp he)).push
            (f := fun n' => n'.pushBoth N k1 e2 (n.qs e2).time) fun a b hab => pushBoth_qs hab
  · simp [Good]

theorem arrival_good (W : Wired C N) (hP : Paints C N) {n : Net T R} (hs : Staffed N n.qs) {g : GCol K}
    (hp : ∀ p, g.prev = some p → p < N.nE) {k1 : Nat} (hk : k1 < N.nE) : Good N (n.slowArrival C N g k1) := by
  unfold Net.slowArrival
  simp only
  split
  · simp [Good]
  · next s1 r h1 =>
    have hs1 : Staffed N (Net.setNum (n.setQ k1 s1) (N.qc k1).edge.idx s1.numTotal).qs := hs.set (k := k1) fun _ =>
      nextEvent_servers (ifInactive_nn (hs k1 hk)) h1
    obtain ⟨g1, h3, -⟩ := showQueue_total W hP hs1 hp hk
    rw [h3]
    simp only
    split
    · split
      · simp [Good]
      · next n2 h4 =>
        refine ⟨by simp, fun q hq => ?_⟩
        simp only [Except.ok.injEq] at hq
        subst hq
        simp only [pushKey_qs h4]; exact hs1
    · refine ⟨by simp, fun q hq => ?_⟩
      simp only [Except.ok.injEq] at hq
      subst hq; exact hs1

theorem step_good (W : Wired C N) (hP : Paints C N) {n : Net T R} (hs : Staffed N n.qs) {g : GCol K}
    (hp : ∀ p, g.prev = some p → p < N.nE) : Good N (n.slowStep C N g) := by
  unfold Net.slowStep
  split
  · refine ⟨by simp, fun q hq => ?_⟩
    simp only [Except.ok.injEq] at hq
    subst hq; exact hs
  · split
    · simp [Good]
    · simp [Good]
    · next hh q1t k1 h1 =>
      split
      · simp [Good]
      · next hk =>
        simp only
        split
        · exact departure_good W hP (n := { n with heap := hh, t := q1t, numEvents := n.numEvents + 1 }) hs hp
            (not_le.mp hk)
        · split
          · exact arrival_good W hP (n := { n with heap := hh, t := q1t, numEvents := n.numEvents + 1 }) hs hp
              (not_le.mp hk)
          · refine ⟨by simp, fun q hq => ?_⟩
            simp only [Except.ok.injEq] at hq
            subst hq; exact hs

end Animation

/-- C80: `_update_all_colors` does not raise and gives every edge a colour. -/
theorem C80_never_raises [IsStrictOrderedRing K] {C : ColCfg K} {N : NetCfg T R} (W : Wired C N)
    (hP : Paints C N) {qs : Nat → QS T} (hs : Staffed N qs) (g : GCol K) : ∃ g', updateAll C N qs g = .ok g' := by
  obtain ⟨p, hp⟩ := updateFirst_total W hP hs g N.nE le_rfl
  unfold updateAll
  rw [hp]; exact ⟨_, rfl⟩

/-- C81: an event drawn by `animate` changes the network exactly as the same event of `simulate` does; if it raises
because of the event then so does `simulate`. -/
theorem C81_same_event (C : ColCfg K) {N : NetCfg T R} (n : Net T R) (g : GCol K) :
    (∀ n' g', n.slowStep C N g = .ok (n', g') → n.step N = .ok n') ∧
    ∀ e, n.slowStep C N g = .error (.ev e) → n.step N = .error e := by
  have h := step_agrees (C := C) (N := N) (g := g) (n := n)
  refine ⟨fun n' g' h1 => ?_, fun e h1 => ?_⟩
  · rw [h1] at h; exact h
  · rw [h1] at h; exact h

/-- C81: `animate` never raises and shows, after any number `m` of events, the state that `simulate(n=m)` leads to: the
colours of all edges, of all rims, and of the vertices without a loop of a type other than 0 are those of the present
queues (and the last too, if there is only one such loop). MISSING from the full property: the vertices with such loops
if there are several, see `C81_wrong_vertex`. -/
theorem C81_animation_partial [IsStrictOrderedRing K] {C : ColCfg K} {N : NetCfg T R} (W : Wired C N) (hN : N.OkA)
    (hF : N.NoLoopA ∨ N.Ok ∧ N.NoInf) (hz : NullIsZero N) (hP : Paints C N) {b : Nat → Bool} (m : Nat) : ∀ {n : Net T R} {g : GCol K},
    NetReach N b n → n.initialized = true → Staffed N n.qs → Current C N n.qs g →
    (∀ p, g.prev = some p → p < N.nE) →
    ∃ n' g', Net.slowSteps C N m n g = .ok (n', g') ∧ n.simulate N m = .ok n' ∧ Current C N n'.qs g' := by
  induction m with
  | zero =>
    intro n g h hi hs hc hp
    exact ⟨n, g, rfl, by simp [Net.simulate, Net.steps, hi], hc⟩
  | succ m ih =>
    intro n g h hi hs hc hp
    obtain ⟨n1, h1, h2, h3⟩ := step_ok hN hF h hi
    rw [simulate_one, if_pos hi] at h1
    have h4 : n.step N = .ok n1 := h1
    have hg := step_good W hP hs hp
    have ha := step_agrees (C := C) (N := N) (g := g) (n := n)
    cases hx : n.slowStep C N g with
    | error e =>
      cases e with
      | col e => exact absurd hx (hg.1 e)
      | ev e => rw [hx] at ha; simp only [Agrees] at ha; rw [h4] at ha; simp at ha
    | ok p =>
      obtain ⟨n2, g2⟩ := p
      rw [hx] at ha
      simp only [Agrees] at ha
      rw [h4] at ha
      simp only [Except.ok.injEq] at ha
      subst ha
      obtain ⟨c1, c2⟩ := step_fine W hN hz ⟨hc, hp⟩ (h.invA hN).probs hx
      obtain ⟨n', g', q1, q2, q3⟩ := ih h2 h3 (hg.2 _ hx) c1 c2
      refine ⟨n', g', ?_, ?_, q3⟩
      · unfold Net.slowSteps; rw [hx]; exact q1
      · rw [Net.simulate, if_pos hi] 
        rw [Net.simulate, if_pos h3] at q2
        simp only [Net.steps, h4]; exact q2

/-- C80: what `show_active` draws: each edge in the colour for active or inactive queues according to its queue, each vertex filled in
the colour for active vertices if a queue on an edge into it is active, and in the other one if none is. -/
theorem C80_show_active {C : ColCfg K} {N : NetCfg T R} (W : Wired C N) (qs : Nat → QS T) (vOn vOff eOn eOff grey : List K)
    (g : GCol K) :
    (∀ k < N.nE, (activeColours C N qs vOn vOff eOn eOff grey g).edge ((N.qc k).edge.src, (N.qc k).edge.tgt) =
      if (qs k).active then eOn else eOff) ∧
    (∀ v, (∃ k < N.nE, (N.qc k).edge.tgt = v ∧ (qs k).active = true) →
      (activeColours C N qs vOn vOff eOn eOff grey g).vfill v = vOn) ∧
    (∀ v, (∀ k < N.nE, (N.qc k).edge.tgt = v → (qs k).active = false) →
      (activeColours C N qs vOn vOff eOn eOff grey g).vfill v = vOff) ∧
    (∀ v, (activeColours C N qs vOn vOff eOn eOff grey g).vcol v = grey) ∧
    (∀ e, (∀ k < N.nE, ((N.qc k).edge.src, (N.qc k).edge.tgt) ≠ e) →
      (activeColours C N qs vOn vOff eOn eOff grey g).edge e = g.edge e) ∧
    (activeColours C N qs vOn vOff eOn eOff grey g).prev = g.prev := by
  refine ⟨fun k hk => ?_, fun v hv => ?_, fun v hv => ?_, fun _ => rfl, fun e he => ?_, rfl⟩
  · unfold activeColours
    simp only
    cases hf : (List.range N.nE).find? fun j => decide (((N.qc j).edge.src, (N.qc j).edge.tgt) =
        ((N.qc k).edge.src, (N.qc k).edge.tgt)) with
    | none =>
      have := List.find?_eq_none.mp hf k (List.mem_range.mpr hk)
      simp at this
    | some j =>
      have h1 := List.find?_some hf
      have h2 := List.mem_range.mp (List.mem_of_find?_eq_some hf)
      simp only [decide_eq_true_eq, Prod.mk.injEq] at h1
      have := W.inj j h2 k hk h1.1 h1.2
      subst this
      rfl
  · obtain ⟨k, hk, ht, ha⟩ := hv
    unfold activeColours
    simp only
    rw [if_pos]
    exact List.any_eq_true.mpr ⟨k, (W.inE v k).mpr ⟨hk, ht⟩, ha⟩
  · unfold activeColours
    simp only
    rw [if_neg]
    intro h
    obtain ⟨k, hk, ha⟩ := List.any_eq_true.mp h
    obtain ⟨h1, h2⟩ := (W.inE v k).mp hk
    rw [hv k h1 h2] at ha
    cases ha
  · unfold activeColours
    simp only
    have : ((List.range N.nE).find? fun j => decide (((N.qc j).edge.src, (N.qc j).edge.tgt) = e)) = none := by
      rw [List.find?_eq_none]
      intro k hk
      simpa using he k (List.mem_range.mp hk)
    rw [this]

/-- C80: `_update_all_colors` brings everything up to date if every vertex with a loop of type 0 has another edge
with a smaller number than the loop. MISSING from the full property: the other vertices with a loop of type 0, see
`C80_show_active_stays`. -/
theorem C80_current_partial {C : ColCfg K} {N : NetCfg T R} (W : Wired C N) {qs : Nat → QS T} {g g' : GCol K}
    (hE : ∀ v k, C.loopAt v = some k → (N.qc k).edge.etype = 0 → ∃ j < k, Touches N j v)
    (h : updateAll C N qs g = .ok g') : Current C N qs g' ∧ ∀ v, Typed C N v → LoopShown C N qs g' v := by
  obtain ⟨h1, h2, h3, -, -, -⟩ := C80_update_all W h
  have hl : ∀ v, Typed C N v → LoopShown C N qs g' v := fun v hv => by
    obtain ⟨k, hk, h0⟩ := hv
    obtain ⟨q1, q2, -⟩ := (W.loop v k).mp hk
    exact (h2 v ⟨k, q1, .inl q2⟩).2.2 ⟨k, hk, h0⟩
  refine ⟨⟨h1, fun v hv => (h2 v hv).1, fun v hv ht => ?_, fun _ => hl⟩, hl⟩
  cases hv' : C.loopAt v with
  | none => exact (h2 v hv).2.1 hv'
  | some k =>
    have h0 : (N.qc k).edge.etype = 0 := by
      by_contra h0
      exact ht ⟨k, hv', h0⟩
    exact (h3 v k hv' h0).1 (hE v k hv' h0)

/-! ### Witnesses -/

/-- Colours for `demoNet`. -/
def demoCol : ColCfg ℚ where
  cols _ := greys
  sens _ := 2
  vfill := [9/10, 9/10, 9/10, 1]
  vpen := [0, 1/2, 1, 1]
  inEdges v := match v with
    | 1 => [0]
    | 2 => [1, 3]
    | 3 => [2, 4]
    | _ => []
  loopAt v := match v with
    | 2 => some 3
    | 3 => some 4
    | _ => none

/-- A graph without colours. -/
def blank : GCol ℚ := ⟨fun _ => [], fun _ => [], fun _ => [], none⟩

/-- The colours after `_update_all_colors`, if it does not raise. -/
def painted (C : ColCfg ℚ) (N : NetCfg ℕ∞ Nat) (qs : Nat → QS ℕ∞) (g : GCol ℚ) : GCol ℚ :=
  match updateAll C N qs g with
  | .ok g => g
  | .error _ => g

/-- The colours after an animation of `m` events, if it does not raise. -/
def animated (C : ColCfg ℚ) (N : NetCfg ℕ∞ Nat) (m : Nat) (n : Net ℕ∞ Nat) (g : GCol ℚ) : GCol ℚ :=
  match Net.slowSteps C N m n g with
  | .ok p => p.2
  | .error _ => g

theorem demoCol_wired : Wired demoCol demoNet where
  inj := by decide
  loop := by
    intro v k
    constructor
    · intro h
      match v, h with
      | 2, h => cases h; decide
      | 3, h => cases h; decide
    · rintro ⟨hk, h1, h2⟩
      have : k = 0 ∨ k = 1 ∨ k = 2 ∨ k = 3 ∨ k = 4 := by
        have : k < 5 := hk
        omega
      rcases this with rfl | rfl | rfl | rfl | rfl <;> simp [demoNet, demoQ] at h1 h2 <;> first | omega | (subst h1; rfl)
  inE := by
    intro v e
    constructor
    · intro h
      match v, h with
      | 1, h => simp only [demoCol, List.mem_cons, List.not_mem_nil, or_false] at h; subst h; decide
      | 2, h => simp only [demoCol, List.mem_cons, List.not_mem_nil, or_false] at h; rcases h with rfl | rfl <;> decide
      | 3, h => simp only [demoCol, List.mem_cons, List.not_mem_nil, or_false] at h; rcases h with rfl | rfl <;> decide
      | 0, h => simp [demoCol] at h
      | _ + 4, h => simp [demoCol] at h
    · rintro ⟨hk, h1⟩
      have : e = 0 ∨ e = 1 ∨ e = 2 ∨ e = 3 ∨ e = 4 := by
        have : e < 5 := hk
        omega
      rcases this with rfl | rfl | rfl | rfl | rfl <;> simp only [demoNet, demoQ] at h1 <;> subst h1 <;> decide
  out := by decide

theorem demoCol_paints : Paints demoCol demoNet := by
  refine ⟨fun _ _ => le_rfl, fun _ _ => le_rfl, fun _ _ => by norm_num [demoCol], le_rfl, fun _ _ _ => le_rfl, fun k hk h => ?_⟩
  have : ∀ k < demoNet.nE, (demoNet.qc k).kind ≠ .resource := by decide
  exact absurd h (this k hk)

theorem demoNet_typed : NullIsZero demoNet := by unfold NullIsZero; decide

/-- The hypotheses of C80 and C81 are met by `demoNet`: its drawing may begin with the colours that
`_update_all_colors` gives, and after ten events vertex 1, with three agents at its queue, is dark. -/
example : Wired demoCol demoNet ∧ Paints demoCol demoNet ∧ NullIsZero demoNet ∧ Staffed demoNet (demoAt 0).qs ∧
    Current demoCol demoNet (demoAt 0).qs (painted demoCol demoNet (demoAt 0).qs blank) ∧
    (painted demoCol demoNet (demoAt 0).qs blank).vfill 1 = [9/10, 9/10, 9/10, 1] ∧
    (animated demoCol demoNet 10 (demoAt 0) (painted demoCol demoNet (demoAt 0).qs blank)).vfill 1 =
      [9/40, 9/40, 9/40, 1] := by
  have hs : Staffed demoNet (demoAt 0).qs := by
    have h1 : ∀ k < demoNet.nE, ((demoAt 0).qs k).numServers = .fin 1 := by decide +kernel
    intro k hk m hm
    rw [h1 k hk] at hm; cases hm; decide
  refine ⟨demoCol_wired, demoCol_paints, demoNet_typed, hs, ?_, by decide +kernel, by decide +kernel⟩
  obtain ⟨g', hg⟩ := C80_never_raises demoCol_wired demoCol_paints hs blank
  have : painted demoCol demoNet (demoAt 0).qs blank = g' := by unfold painted; rw [hg]
  rw [this]
  refine (C80_current_partial demoCol_wired (fun v k hk _ => ?_) hg).1
  match v, hk with
  | 2, h => cases h; exact ⟨1, by decide, .inr rfl⟩
  | 3, h => cases h; exact ⟨2, by decide, .inr rfl⟩

/-- The colours of `rentNet`, a network with a ResourceQueue. -/
def rentCol : ColCfg ℚ where
  cols _ := greys
  sens _ := 2
  vfill := [9/10, 9/10, 9/10, 1]
  vpen := [0, 1/2, 1, 1]
  inEdges v := match v with
    | 1 => [0, 2]
    | 2 => [1]
    | _ => []
  loopAt _ := none

theorem rentCol_wired : Wired rentCol rentNet where
  inj := by decide
  loop := by
    intro v k
    constructor
    · intro h; cases h
    · rintro ⟨hk, h1, h2⟩
      have : k = 0 ∨ k = 1 ∨ k = 2 := by
        have : k < 3 := hk
        omega
      rcases this with rfl | rfl | rfl <;> simp [rentNet, demoQ] at h1 h2 <;> omega
  inE := by
    intro v e
    constructor
    · intro h
      match v, h with
      | 1, h => simp only [rentCol, List.mem_cons, List.not_mem_nil, or_false] at h; rcases h with rfl | rfl <;> decide
      | 2, h => simp only [rentCol, List.mem_cons, List.not_mem_nil, or_false] at h; subst h; decide
      | 0, h => simp [rentCol] at h
      | _ + 3, h => simp [rentCol] at h
    · rintro ⟨hk, h1⟩
      have : e = 0 ∨ e = 1 ∨ e = 2 := by
        have : e < 3 := hk
        omega
      rcases this with rfl | rfl | rfl <;> simp only [rentNet, demoQ] at h1 <;> subst h1 <;> decide
  out := by decide

theorem rentCol_paints : Paints rentCol rentNet := by
  refine ⟨fun _ _ => le_rfl, fun _ _ => le_rfl, fun _ _ => by norm_num [rentCol], le_rfl, fun _ _ _ => le_rfl,
    fun k hk h => ?_⟩
  have : ∀ k < rentNet.nE, (rentNet.qc k).kind = .resource → (rentNet.qc k).maxServers = .fin 10 := by decide
  exact ⟨10, this k hk h⟩

theorem rentAt_staffed : Staffed rentNet (rentAt 0).qs := by
  have h1 : ∀ k < rentNet.nE, ((rentAt 0).qs k).numServers = .fin 1 ∨ ((rentAt 0).qs k).numServers = .fin 4 := by
    decide +kernel
  intro k hk m hm
  rcases h1 k hk with h | h <;> rw [h] at hm <;> cases hm <;> decide

/-- The hypotheses are also met by a network with a ResourceQueue, whose edge becomes lighter as its resources are
taken. -/
example : rentNet.OkA ∧ rentNet.NoLoopA ∧ Wired rentCol rentNet ∧ Paints rentCol rentNet ∧ NullIsZero rentNet ∧
    Staffed rentNet (rentAt 0).qs ∧
    Current rentCol rentNet (rentAt 0).qs (painted rentCol rentNet (rentAt 0).qs blank) ∧
    (painted rentCol rentNet (rentAt 0).qs blank).edge (1, 2) =
      [23/30, 23/30, 23/30, 1/2] ∧
    (animated rentCol rentNet 6 (rentAt 0) (painted rentCol rentNet (rentAt 0).qs blank)).edge (1, 2) =
      [13/15, 13/15, 13/15, 1/2] := by
  refine ⟨rentNet_ok, rentNet_loop, rentCol_wired, rentCol_paints, by unfold NullIsZero; decide, rentAt_staffed, ?_,
    by decide +kernel, by decide +kernel⟩
  obtain ⟨g', hg⟩ := C80_never_raises rentCol_wired rentCol_paints rentAt_staffed blank
  have : painted rentCol rentNet (rentAt 0).qs blank = g' := by unfold painted; rw [hg]
  rw [this]
  exact (C80_current_partial rentCol_wired (fun v k hk _ => by cases hk) hg).1

/-- Vertices 0 and 1 with loops of type 1, and an edge in either direction. -/
def twoLoops : NetCfg ℕ∞ Nat where
  nE := 4
  qc k := match k with
    | 0 => demoQ .server 0 0 0 1 2 3 .inf
    | 1 => demoQ .server 0 1 1 2 3 1 .inf
    | 2 => demoQ .server 1 1 2 1 5 1 .inf
    | _ => demoQ .server 1 0 k 2 5 1 .inf
  outEdges v := match v with
    | 0 => [0, 1]
    | 1 => [2, 3]
    | _ => []
  maxAgents := .inf
  unif i := i % 3
  jit _ t := t + 1
  garbage _ _ := (0, 0)

/-- Colours for `twoLoops`. -/
def twoCol : ColCfg ℚ where
  cols _ := greys
  sens _ := 2
  vfill := [9/10, 9/10, 9/10, 1]
  vpen := [0, 1/2, 1, 1]
  inEdges v := match v with
    | 0 => [0, 3]
    | 1 => [1, 2]
    | _ => []
  loopAt v := match v with
    | 0 => some 0
    | 1 => some 2
    | _ => none

/-- State of `twoLoops` after `m` events. -/
def twoAt (m : Nat) : Net ℕ∞ Nat :=
  resNet twoLoops (fun _ => true) true (fun v => List.replicate (twoLoops.outEdges v).length 1)
    (.initialise (fun l _ => l) (.queues [0, 1]) :: List.replicate m .step)

/-- Why C81 excludes vertices with loops of a type other than 0: in lines 1586-1587 the colour of the loop that was drawn
before goes to the vertex drawn now. Here an agent arrives at the loop at vertex 0 and then one at the queue from
vertex 0 to vertex 1, whereupon vertex 1 gets the colour of the loop at vertex 0, although the queue of its own loop
is empty. -/
theorem C81_wrong_vertex : NetReach twoLoops (fun _ => true) (twoAt 0) ∧ ((twoAt 2).qs 2).numSystem = 0 ∧
    (match twoCol.queue twoLoops (twoAt 2).qs 2 0 with
      | .ok l => decide (l = [9/10, 9/10, 9/10, 1])
      | .error _ => false) = true ∧
    (painted twoCol twoLoops (twoAt 0).qs blank).vfill 1 = [9/10, 9/10, 9/10, 1] ∧
    (animated twoCol twoLoops 2 (twoAt 0) (painted twoCol twoLoops (twoAt 0).qs blank)).vfill 1 = [3/5, 3/5, 3/5, 1] :=
  ⟨reachNet _ _ _ _ _ fun _ => List.length_replicate, by decide +kernel, by decide +kernel, by decide +kernel,
    by decide +kernel⟩

/-- A NullQueue on a loop at vertex 0, where the queue from vertex 1 ends. -/
def sinkNet : NetCfg ℕ∞ Nat where
  nE := 2
  qc k := match k with
    | 0 => demoQ .null 0 0 0 0 1 1 .inf
    | _ => demoQ .server 1 0 k 1 2 3 .inf
  outEdges v := match v with
    | 0 => [0]
    | _ => [1]
  maxAgents := .inf
  unif _ := 0
  jit _ t := t + 1
  garbage _ _ := (0, 0)

/-- Colours for `sinkNet`. -/
def sinkCol : ColCfg ℚ where
  cols _ := greys
  sens _ := 2
  vfill := [9/10, 9/10, 9/10, 1]
  vpen := [0, 1/2, 1, 1]
  inEdges v := match v with
    | 0 => [0, 1]
    | _ => []
  loopAt v := match v with
    | 0 => some 0
    | _ => none

/-- State of `sinkNet` after `m` events. -/
def sinkAt (m : Nat) : Net ℕ∞ Nat :=
  resNet sinkNet (fun _ => true) true (fun v => List.replicate (sinkNet.outEdges v).length 1)
    (.initialise (fun l _ => l) (.queues [1]) :: List.replicate m .step)

/-- Why C80 excludes vertices with a loop of type 0 that has the smallest number of the edges there: after `show_active`
vertex 0 keeps the colour that means "takes arrivals from outside". -/
theorem C80_show_active_stays : NetReach sinkNet (fun _ => true) (sinkAt 3) ∧
    (match sinkCol.load (sinkAt 3).qs 0 with
      | .ok l => decide (l = [3/4, 3/4, 3/4, 1])
      | .error _ => false) = true ∧
    (painted sinkCol sinkNet (sinkAt 3).qs
      (activeColours sinkCol sinkNet (sinkAt 3).qs [1/10, 1, 1/2, 1] [19/20, 19/20, 19/20, 1] [1/10, 1/10, 1/10, 1]
        [4/5, 4/5, 4/5, 3/10] [0, 0, 0, 9/10] blank)).vfill 0 = [1/10, 1, 1/2, 1] :=
  ⟨reachNet _ _ _ _ _ fun _ => List.length_replicate, by decide +kernel, by decide +kernel⟩

end Verif.ColourSpec
