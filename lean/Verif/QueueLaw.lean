import Verif.QueueData
import Verif.QueueFetch
import Mathlib.Algebra.BigOperators.Group.List.Basic
import Mathlib.Tactic.Abel

/-! # Time integrals along a history and the rows recorded meanwhile (specification and proof support) -/

set_option linter.unusedSectionVars false
set_option linter.unusedSimpArgs false
set_option linter.unusedVariables false

namespace Verif

variable {T : Type*} [LinearOrder T] [OrderTop T] [Zero T]

/-- Histories that remember every state passed through: `Traj c b ok s l` says that the history led to `s`
through the states `l`, the latest first. -/
inductive Traj (c : QCfg T) (b : Bool) (ok : QS T → QOp T → Prop) : QS T → List (QS T) → Prop
  | init : Traj c b ok (QS.init c b) []
  | step {s s' : QS T} {l : List (QS T)} (op : QOp T) : Traj c b ok s l → ok s op → op.run c s = .ok s' →
      Traj c b ok s' (s :: l)

theorem Traj.reach {c : QCfg T} {b : Bool} {ok : QS T → QOp T → Prop} {s : QS T} {l : List (QS T)}
    (h : Traj c b ok s l) : Reach c b ok s := by
  induction h with
  | init => exact .init
  | step op _ h1 h2 ih => exact .step op ih h1 h2

theorem Reach.traj {c : QCfg T} {b : Bool} {ok : QS T → QOp T → Prop} {s : QS T}
    (h : Reach c b ok s) : ∃ l, Traj c b ok s l := by
  induction h with
  | init => exact ⟨[], .init⟩
  | step op _ h1 h2 ih =>
    obtain ⟨l, ih⟩ := ih
    exact ⟨_, .step op ih h1 h2⟩

section
variable {M : Type*} [AddCommGroup M]

/-- The integral over time of the number `n`, which is constant between two calls, along the history that
led to `s` through `l`. `f` measures time: from clock reading `t` to `t'` there pass `f t' - f t`. -/
def area (f : T → M) (n : QS T → Nat) : QS T → List (QS T) → M
  | _, [] => 0
  | s', s :: l => area f n s l + n s • (f s'.currentT - f s.currentT)

/-- Time waited by the visit recorded in a row (nothing, if service never started). -/
def waitOf (f : T → M) (r : Row T) : M := if r.arr ≤ r.start then f r.start - f r.arr else 0

/-- Time in service of the visit recorded in a row (nothing, if it never departed). -/
def servOf (f : T → M) (r : Row T) : M := if r.start ≤ r.dep then f r.dep - f r.start else 0

/-- Time in the system of the visit recorded in a row (nothing, if it never departed). -/
def sojOf (f : T → M) (r : Row T) : M := if r.arr ≤ r.dep then f r.dep - f r.arr else 0

/-- Sum over all recorded rows. -/
def total (g : Row T → M) (d : Data T) : M := ((allRows d).map g).sum

/-- Arrival time in the last row of `x`. -/
def lastArr (f : T → M) (d : Data T) (x : Nat × Nat) : M := ((d.rows x).getLast?).elim 0 fun r => f r.arr

/-- Service start in the last row of `x`. -/
def lastStart (f : T → M) (d : Data T) (x : Nat × Nat) : M :=
  ((d.rows x).getLast?).elim 0 fun r => f r.start

theorem total_cons (g : Row T → M) (p : (Nat × Nat) × List (Row T)) (d : Data T) :
    total g (p :: d) = (p.2.map g).sum + total g d := by
  simp [total, allRows]

theorem total_append (g : Row T → M) (d : Data T) (x : Nat × Nat) (r : Row T) :
    total g (d.append x r) = total g d + g r := by
  induction d with
  | nil => simp [Data.append, total, allRows]
  | cons p d ih =>
    obtain ⟨i, rs⟩ := p
    simp only [Data.append]
    split
    · simp only [total_cons, List.map_append, List.sum_append]; simp; abel
    · rw [total_cons, total_cons, ih, add_assoc]

theorem total_modify (g : Row T → M) (d : Data T) (x : Nat × Nat) (F : Row T → Row T) {R : List (Row T)}
    {r : Row T} (h : d.rows x = R ++ [r]) :
    total g (d.modify x F) = total g d - g r + g (F r) := by
  induction d with
  | nil => simp [Data.rows] at h
  | cons p d ih =>
    obtain ⟨i, rs⟩ := p
    simp only [Data.modify]
    by_cases hi : i = x
    · rw [if_pos hi]
      simp only [Data.rows, hi, if_true] at h
      subst h
      simp only [total_cons, modLast_snoc, List.map_append, List.sum_append]; simp; abel
    · rw [if_neg hi]
      simp only [Data.rows, hi, if_false] at h
      rw [total_cons, total_cons, ih h]; abel

/-- Time elapsed since `g x`, summed over a list. -/
def since (f : T → M) (now : T) (g : Nat × Nat → M) (l : List (Nat × Nat)) : M :=
  (l.map fun x => f now - g x).sum

theorem since_perm (f : T → M) (now : T) (g : Nat × Nat → M) {l l' : List (Nat × Nat)} (h : l.Perm l') :
    since f now g l = since f now g l' := (h.map _).sum_eq

theorem since_congr (f : T → M) (now : T) {g g' : Nat × Nat → M} {l : List (Nat × Nat)}
    (h : ∀ x ∈ l, g x = g' x) : since f now g l = since f now g' l := by
  unfold since
  rw [List.map_congr_left fun x hx => by rw [h x hx]]

@[simp] theorem since_cons (f : T → M) (now : T) (g : Nat × Nat → M) (x : Nat × Nat) (l : List (Nat × Nat)) :
    since f now g (x :: l) = f now - g x + since f now g l := by simp [since]

@[simp] theorem since_nil (f : T → M) (now : T) (g : Nat × Nat → M) : since f now g [] = 0 := rfl

@[simp] theorem since_append (f : T → M) (now : T) (g : Nat × Nat → M) (l l' : List (Nat × Nat)) :
    since f now g (l ++ l') = since f now g l + since f now g l' := by simp [since]

theorem since_tick (f : T → M) (t t' : T) (g : Nat × Nat → M) (l : List (Nat × Nat)) :
    since f t' g l = since f t g l + l.length • (f t' - f t) := by
  induction l with
  | nil => simp
  | cons x l ih => simp only [since_cons, ih, List.length_cons, succ_nsmul]; abel

/-- The balance kept along a history: `W` waits, `S` is in service; the integrals of the number waiting,
in service, in the system are the times recorded and the times since the open rows began. -/
structure Ledger (f : T → M) (now : T) (W S : List (Nat × Nat)) (d : Data T) (Aw As A : M) : Prop where
  nodup : (W ++ S).Nodup
  pos : 0 ≤ now
  wait : ∀ x ∈ W, ∃ R r, d.rows x = R ++ [r] ∧ r.start = 0 ∧ r.dep = 0 ∧ 0 ≤ r.arr ∧ r.arr ≤ now
  serv : ∀ x ∈ S, ∃ R r, d.rows x = R ++ [r] ∧ r.dep = 0 ∧ 0 ≤ r.arr ∧ r.arr ≤ r.start ∧ r.start ≤ now
  aw : Aw = total (waitOf f) d + since f now (lastArr f d) W
  as : As = total (servOf f) d + since f now (lastStart f d) S
  a : A = total (sojOf f) d + since f now (lastArr f d) (W ++ S)

variable {f : T → M} {now : T} {W S : List (Nat × Nat)} {d : Data T} {Aw As A : M}

theorem Ledger.tick (h : Ledger f now W S d Aw As A) {t : T} (ht : now ≤ t) :
    Ledger f t W S d (Aw + W.length • (f t - f now)) (As + S.length • (f t - f now))
      (A + (W ++ S).length • (f t - f now)) := by
  refine ⟨h.nodup, h.pos.trans ht, fun x hx => ?_, fun x hx => ?_, ?_, ?_, ?_⟩
  · obtain ⟨R, r, e1, e2, e3, e4, e5⟩ := h.wait x hx
    exact ⟨R, r, e1, e2, e3, e4, e5.trans ht⟩
  · obtain ⟨R, r, e1, e2, e3, e4, e5⟩ := h.serv x hx
    exact ⟨R, r, e1, e2, e3, e4, e5.trans ht⟩
  · rw [since_tick f now t, h.aw]; abel
  · rw [since_tick f now t, h.as]; abel
  · rw [since_tick f now t, h.a]; abel

theorem Ledger.perm (h : Ledger f now W S d Aw As A) {W' S' : List (Nat × Nat)} (hW : W.Perm W')
    (hS : S.Perm S') : Ledger f now W' S' d Aw As A := by
  have hp := hW.append hS
  refine ⟨hp.nodup_iff.mp h.nodup, h.pos, fun x hx => h.wait x (hW.mem_iff.mpr hx),
    fun x hx => h.serv x (hS.mem_iff.mpr hx), ?_, ?_, ?_⟩
  · rw [h.aw, since_perm f now _ hW]
  · rw [h.as, since_perm f now _ hS]
  · rw [h.a, since_perm f now _ hp]

theorem lastArr_congr {d d' : Data T} {x : Nat × Nat} (h : d.rows x = d'.rows x) :
    lastArr f d x = lastArr f d' x := by simp [lastArr, h]

theorem lastStart_congr {d d' : Data T} {x : Nat × Nat} (h : d.rows x = d'.rows x) :
    lastStart f d x = lastStart f d' x := by simp [lastStart, h]

theorem lastArr_eq {d : Data T} {x : Nat × Nat} {R : List (Row T)} {r : Row T} (h : d.rows x = R ++ [r]) :
    lastArr f d x = f r.arr := by simp [lastArr, h]

theorem lastStart_eq {d : Data T} {x : Nat × Nat} {R : List (Row T)} {r : Row T} (h : d.rows x = R ++ [r]) :
    lastStart f d x = f r.start := by simp [lastStart, h]

/-- A row just opened, or the row of a blocked arrival, counts for nothing. -/
theorem fresh_zero (hn : 0 ≤ now) (n1 : Nat) (n2 : Int) :
    waitOf f ⟨now, 0, 0, n1, n2⟩ = 0 ∧ servOf f ⟨now, 0, 0, n1, n2⟩ = 0 ∧
      sojOf f ⟨now, 0, 0, n1, n2⟩ = 0 := by
  have : now ≤ 0 → f 0 - f now = 0 := fun h => by rw [le_antisymm h hn, sub_self]
  refine ⟨?_, ?_, ?_⟩
  · simp only [waitOf]; split <;> simp_all
  · simp [servOf]
  · simp only [sojOf]; split <;> simp_all

/-- An arrival is turned away. -/
theorem Ledger.block (h : Ledger f now W S d Aw As A) {x : Nat × Nat} (hw : x ∉ W) (hs : x ∉ S)
    (n1 : Nat) (n2 : Int) : Ledger f now W S (d.append x ⟨now, 0, 0, n1, n2⟩) Aw As A := by
  have hr : ∀ y, y ≠ x → (d.append x ⟨now, 0, 0, n1, n2⟩).rows y = d.rows y := by
    intro y hy; rw [Data.rows_append, if_neg hy]
  obtain ⟨z1, z2, z3⟩ := fresh_zero (f := f) h.pos n1 n2
  have hW : ∀ y ∈ W, y ≠ x := fun y hy e => hw (e ▸ hy)
  have hS : ∀ y ∈ S, y ≠ x := fun y hy e => hs (e ▸ hy)
  refine ⟨h.nodup, h.pos, fun y hy => ?_, fun y hy => ?_, ?_, ?_, ?_⟩
  · rw [hr y (hW y hy)]; exact h.wait y hy
  · rw [hr y (hS y hy)]; exact h.serv y hy
  · rw [total_append, z1, add_zero, h.aw]
    congr 1
    exact since_congr f now fun y hy => lastArr_congr (hr y (hW y hy)).symm
  · rw [total_append, z2, add_zero, h.as]
    congr 1
    exact since_congr f now fun y hy => lastStart_congr (hr y (hS y hy)).symm
  · rw [total_append, z3, add_zero, h.a]
    congr 1
    refine since_congr f now fun y hy => lastArr_congr (hr y ?_).symm
    rcases List.mem_append.mp hy with hy | hy
    exacts [hW y hy, hS y hy]

/-- An arrival is admitted. -/
theorem Ledger.admit (h : Ledger f now W S d Aw As A) {x : Nat × Nat} (hw : x ∉ W) (hs : x ∉ S)
    (n1 : Nat) (n2 : Int) : Ledger f now (x :: W) S (d.append x ⟨now, 0, 0, n1, n2⟩) Aw As A := by
  have hb := h.block hw hs n1 n2
  have hx : (d.append x ⟨now, 0, 0, n1, n2⟩).rows x = d.rows x ++ [⟨now, 0, 0, n1, n2⟩] := by
    rw [Data.rows_append, if_pos rfl]
  have hl : f now - lastArr f (d.append x ⟨now, 0, 0, n1, n2⟩) x = 0 := by
    rw [lastArr_eq hx, sub_self]
  refine ⟨?_, h.pos, fun y hy => ?_, hb.serv, ?_, hb.as, ?_⟩
  · rw [List.cons_append, List.nodup_cons]
    exact ⟨by simp [hw, hs], h.nodup⟩
  · rcases List.mem_cons.mp hy with rfl | hy
    · exact ⟨_, _, hx, rfl, rfl, h.pos, le_rfl⟩
    · exact hb.wait y hy
  · rw [since_cons, hl, zero_add]; exact hb.aw
  · rw [List.cons_append, since_cons, hl, zero_add]; exact hb.a

/-- A service starts. -/
theorem Ledger.begin (x : Nat × Nat) (h : Ledger f now (x :: W) S d Aw As A) :
    Ledger f now W (x :: S) (d.modify x fun r => { r with start := now }) Aw As A := by
  obtain ⟨R, r, e1, e2, e3, e4, e5⟩ := h.wait x (by simp)
  have hr : ∀ y, y ≠ x → (d.modify x fun r => { r with start := now }).rows y = d.rows y := by
    intro y hy; rw [Data.rows_modify, if_neg hy]
  have hx : (d.modify x fun r => { r with start := now }).rows x = R ++ [{ r with start := now }] := by
    rw [Data.rows_modify, if_pos rfl, e1, modLast_snoc]
  have hnd := h.nodup
  rw [List.cons_append, List.nodup_cons] at hnd
  simp only [List.mem_append, not_or] at hnd
  have hW : ∀ y ∈ W, y ≠ x := fun y hy e => hnd.1.1 (e ▸ hy)
  have hS : ∀ y ∈ S, y ≠ x := fun y hy e => hnd.1.2 (e ▸ hy)
  have hp : (x :: W ++ S).Perm (W ++ x :: S) := List.perm_middle.symm
  have w0 : waitOf f r = 0 := by
    simp only [waitOf, e2]
    split
    · rename_i hle; rw [le_antisymm hle e4, sub_self]
    · rfl
  have s0 : servOf f r = 0 := by simp [servOf, e2, e3]
  have w1 : waitOf f { r with start := now } = f now - f r.arr := by simp [waitOf, e5]
  have s1 : servOf f { r with start := now } = 0 := by
    simp only [servOf, e3]
    split
    · rename_i hle; rw [le_antisymm hle h.pos, sub_self]
    · rfl
  have j1 : sojOf f { r with start := now } = sojOf f r := rfl
  refine ⟨hp.nodup_iff.mp h.nodup, h.pos, fun y hy => ?_, fun y hy => ?_, ?_, ?_, ?_⟩
  · rw [hr y (hW y hy)]; exact h.wait y (by simp [hy])
  · rcases List.mem_cons.mp hy with rfl | hy
    · exact ⟨R, _, hx, e3, e4, e5, le_rfl⟩
    · rw [hr y (hS y hy)]; exact h.serv y hy
  · rw [total_modify _ d x _ e1, w0, w1, h.aw, since_cons, lastArr_eq e1,
      since_congr f now fun y hy => lastArr_congr (hr y (hW y hy))]
    abel
  · rw [total_modify _ d x _ e1, s0, s1, h.as, since_cons, lastStart_eq hx,
      since_congr f now fun y hy => lastStart_congr (hr y (hS y hy))]
    simp
  · rw [total_modify _ d x _ e1, j1, h.a, since_perm f now _ hp]
    have : since f now (lastArr f (d.modify x fun r => { r with start := now })) (W ++ x :: S) =
        since f now (lastArr f d) (W ++ x :: S) := by
      refine since_congr f now fun y hy => ?_
      by_cases hyx : y = x
      · subst hyx; rw [lastArr_eq hx, lastArr_eq e1]
      · exact lastArr_congr (hr y hyx)
    rw [this]; abel

/-- A service ends. -/
theorem Ledger.finish (x : Nat × Nat) (h : Ledger f now W (x :: S) d Aw As A) :
    Ledger f now W S (d.modify x fun r => { r with dep := now }) Aw As A := by
  obtain ⟨R, r, e1, e2, e3, e4, e5⟩ := h.serv x (by simp)
  have hr : ∀ y, y ≠ x → (d.modify x fun r => { r with dep := now }).rows y = d.rows y := by
    intro y hy; rw [Data.rows_modify, if_neg hy]
  have hp : (W ++ x :: S).Perm (x :: (W ++ S)) := List.perm_middle
  have hnd := hp.nodup_iff.mp h.nodup
  rw [List.nodup_cons] at hnd
  have hnx : ∀ y ∈ W ++ S, y ≠ x := fun y hy e => hnd.1 (e ▸ hy)
  have s0 : servOf f r = 0 := by
    simp only [servOf, e2]
    split
    · rename_i hle; rw [le_antisymm hle (e3.trans e4), sub_self]
    · rfl
  have j0 : sojOf f r = 0 := by
    simp only [sojOf, e2]
    split
    · rename_i hle; rw [le_antisymm hle e3, sub_self]
    · rfl
  have s1 : servOf f { r with dep := now } = f now - f r.start := by simp [servOf, e5]
  have j1 : sojOf f { r with dep := now } = f now - f r.arr := by simp [sojOf, e4.trans e5]
  have w1 : waitOf f { r with dep := now } = waitOf f r := rfl
  refine ⟨hnd.2, h.pos, fun y hy => ?_, fun y hy => ?_, ?_, ?_, ?_⟩
  · rw [hr y (hnx y (by simp [hy]))]; exact h.wait y hy
  · rw [hr y (hnx y (by simp [hy]))]; exact h.serv y (by simp [hy])
  · rw [total_modify _ d x _ e1, w1, h.aw,
      since_congr f now fun y hy => lastArr_congr (hr y (hnx y (by simp [hy])))]
    abel
  · rw [total_modify _ d x _ e1, s0, s1, h.as, since_cons, lastStart_eq e1,
      since_congr f now fun y hy => lastStart_congr (hr y (hnx y (by simp [hy])))]
    abel
  · rw [total_modify _ d x _ e1, j0, j1, h.a, since_perm f now _ hp, since_cons, lastArr_eq e1,
      since_congr f now fun y hy => lastArr_congr (hr y (hnx y hy))]
    abel

theorem Ledger.beginMany (l : List (Agent T)) {W S : List (Nat × Nat)} {d : Data T}
    (h : Ledger f now (l.map (·.id) ++ W) S d Aw As A) :
    Ledger f now W (l.map (·.id) ++ S) (startData now d l) Aw As A := by
  induction l generalizing d S with
  | nil => exact h
  | cons a l ih =>
    have := ih (Ledger.begin a.id (by simpa using h))
    exact this.perm (.refl _) (by simp only [List.map_cons, List.cons_append]; exact List.perm_middle)

end

/-- What `DataOk` asks, and the data are not cleared. -/
def LawOk (c : QCfg T) (s : QS T) (op : QOp T) : Prop := DataOk c s op ∧ op ≠ .clear

section
variable {M : Type*} [AddCommGroup M] {f : T → M}

theorem Ledger.step {c : QCfg T} {s s' : QS T} {op : QOp T} {Aw As A : M} (hk : Simple c)
    (hf : Forward c) (hb : QBase s) (hcl : ClockInv s) (hd : DataInv c s) (hok : LawOk c s op)
    (h : Ledger f s.currentT (s.queue.map (·.id)) ((agents s.departures).map (·.id)) s.data Aw As A)
    (ho : OpOut c s op s') :
    Ledger f s'.currentT (s'.queue.map (·.id)) ((agents s'.departures).map (·.id)) s'.data
      (Aw + s.queue.length • (f s'.currentT - f s.currentT))
      (As + (inService s).length • (f s'.currentT - f s.currentT))
      (A + (s.queue.length + (inService s).length) • (f s'.currentT - f s.currentT)) := by
  have hon := hd.on
  have still : ∀ {s' : QS T}, s'.currentT = s.currentT →
      Ledger f s.currentT (s'.queue.map (·.id)) ((agents s'.departures).map (·.id)) s'.data Aw As A →
      Ledger f s'.currentT (s'.queue.map (·.id)) ((agents s'.departures).map (·.id)) s'.data
      (Aw + s.queue.length • (f s'.currentT - f s.currentT))
      (As + (inService s).length • (f s'.currentT - f s.currentT))
      (A + (s.queue.length + (inService s).length) • (f s'.currentT - f s.currentT)) := by
    intro s' e1 e2
    rw [e1]; simpa using e2
  have tick : ∀ t, s.currentT ≤ t → Ledger f t (s.queue.map (·.id)) ((agents s.departures).map (·.id)) s.data
      (Aw + s.queue.length • (f t - f s.currentT))
      (As + (inService s).length • (f t - f s.currentT))
      (A + (s.queue.length + (inService s).length) • (f t - f s.currentT)) := by
    intro t ht
    have := h.tick ht
    simpa [inService] using this
  cases ho with
  | ev s' r _ h1 =>
    cases h1 with
    | idle _ _ h2 => subst h2; exact still rfl h
    | dep a hlt h2 _ =>
      have hnow : s.currentT ≤ a.time := by
        rw [h2.time_eq]; exact (hcl.nextTime_ge hb).trans (min_le_right _ _)
      obtain ⟨deps, g1, g2, g3⟩ := h2.served
      have g1' : ((agents s.departures).map (·.id)).Perm (a.id :: (agents deps).map (·.id)) := by
        simpa using g1.map (fun x : Agent T => x.id)
      have ht := ((tick a.time hnow).perm (.refl _) g1').finish
      rw [h2.currentT]
      rcases g3 with ⟨b, rest, k1, -, k3, -, k5, -, k7⟩ | ⟨-, k2, -, k4, -, k6⟩
      · rw [hon, if_pos rfl] at k7
        have k5' : ((agents s'.departures).map (·.id)).Perm (b.id :: (agents deps).map (·.id)) := by
          simpa using k5.map (fun x : Agent T => x.id)
        rw [k7, k3]
        exact (ht.perm (W' := b.id :: rest.map (·.id)) (by rw [k1]; simp) (.refl _)).begin.perm
          (.refl _) k5'.symm
      · rw [hon, if_pos rfl] at k6
        rw [k6, k2, k4]
        exact ht
    | arr a rest hle _ _ h2 _ =>
      have hnow : s.currentT ≤ a.time := by
        rw [h2.time_eq]; exact (hcl.nextTime_ge hb).trans (min_le_left _ _)
      have hpres : (presentIds s).Perm (a.id :: ((agents rest).map (·.id) ++
          (s.queue.map (·.id) ++ (agents s.departures).map (·.id)))) := by
        unfold presentIds
        have := (h2.perm.map (fun x : Agent T => x.id)).append_right
          (s.queue.map (·.id) ++ (agents s.departures).map (·.id))
        simpa using this
      have hna := (List.nodup_cons.mp (hpres.nodup_iff.mp hd.nodup)).1
      simp only [List.mem_append, not_or] at hna
      rw [h2.currentT]
      rcases h2.served with ⟨-, k2, -, k4, -, k6⟩ | ⟨-, k2, -, k4, -, k6⟩
      · rw [hon, if_pos rfl] at k6
        have k4' : ((agents s'.departures).map (·.id)).Perm (a.id :: (agents s.departures).map (·.id)) := by
          simpa using k4.map (fun x : Agent T => x.id)
        rw [k2, k6]
        exact ((tick a.time hnow).admit hna.2.1 hna.2.2 _ _).begin.perm (.refl _) k4'.symm
      · rw [hon, if_pos rfl] at k6
        rw [k2, k4, k6]
        refine ((tick a.time hnow).admit hna.2.1 hna.2.2 _ _).perm ?_ (.refl _)
        simp only [List.map_append, List.map_cons, List.map_nil]
        exact List.perm_append_comm (l₁ := [a.id])
    | block a rest hle _ hl _ h2 _ =>
      have hnow : s.currentT ≤ a.time := by
        rw [h2.time_eq]; exact (hcl.nextTime_ge hb).trans (min_le_left _ _)
      have hpres : (presentIds s).Perm (a.id :: ((agents rest).map (·.id) ++
          (s.queue.map (·.id) ++ (agents s.departures).map (·.id)))) := by
        unfold presentIds
        have := (h2.perm.map (fun x : Agent T => x.id)).append_right
          (s.queue.map (·.id) ++ (agents s.departures).map (·.id))
        simpa using this
      have hna := (List.nodup_cons.mp (hpres.nodup_iff.mp hd.nodup)).1
      simp only [List.mem_append, not_or] at hna
      have k6 := h2.data
      rw [hon, if_pos rfl] at k6
      rw [h2.currentT, h2.queue, h2.departures, k6]
      exact (tick a.time hnow).block hna.2.1 hna.2.2 _ _
  | already => exact still rfl h
  | act => exact still rfl h
  | inact => exact still rfl h
  | srv n s' r h1 =>
    cases h1 with
    | typ => exact still rfl h
    | val => exact still rfl h
    | ok new k deps hnew hag hkl h2 h3 =>
      have h3' := h3.map (fun x : Agent T => x.id)
      simp only [List.map_append, startServ_ids] at h3'
      refine still rfl ?_
      simp only [hon, if_true]
      refine (Ledger.beginMany (s.queue.take k) (h.perm ?_ (.refl _))).perm (.refl _) h3'.symm
      rw [← List.map_append, List.take_append_drop]
  | delay t kb s' h1 =>
    cases h1 with
    | none => exact still rfl h
    | some a rest deps _ _ _ h4 h2 h3 =>
      refine still rfl (h.perm (.refl _) ?_)
      have e1 := h4.map (fun x : Agent T => x.id)
      have e2 := h3.map (fun x : Agent T => x.id)
      simp only [List.map_cons] at e1 e2
      exact e1.trans e2.symm
  | collect => exact absurd hok.1 (by simp [DataOk])
  | noteFull => exact still rfl h
  | noteOpen => exact still rfl h
  | clearData => exact absurd hok.1 (by simp [DataOk])
  | clear => exact absurd rfl hok.2
  | handover a arr h1 h2 h3 => exact still rfl h

theorem Traj.ledger {c : QCfg T} {s : QS T} {l : List (QS T)} (hk : Simple c) (hf : Forward c)
    (h : Traj c true (LawOk c) s l) :
    Ledger f s.currentT (s.queue.map (·.id)) ((agents s.departures).map (·.id)) s.data
      (area f (fun s => s.queue.length) s l) (area f (fun s => (inService s).length) s l)
      (area f (fun s => s.queue.length + (inService s).length) s l) := by
  induction h with
  | init => constructor <;> simp [QS.init, area, total, allRows]
  | step op h h1 h2 ih =>
    have hr := h.reach
    have hb := hr.base hk
    exact ih.step hk hf hb (hr.clock hk hf fun _ _ h => h.1.clock)
      (hr.dataInv hk hf fun _ _ h => h.1) h1 (opOut c _ _ op hk hb h2)

end

end Verif
