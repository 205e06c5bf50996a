import Verif.NetArgs
import Verif.Props.Construct
import Verif.Props.GraphNet

/-! # Properties C127 (arguments of QueueNetwork) and C128 (the attribute blocking) -/

set_option linter.unusedSectionVars false
set_option linter.unusedTactic false
set_option linter.unreachableTactic false

namespace Verif

open GSpec

/-! ## Strings -/

theorem lower_r (c : Char) : c.toLower = 'r' ↔ c = 'r' ∨ c = 'R' := by
  rw [Char.ext_iff, Char.ext_iff, Char.ext_iff]
  unfold Char.toLower
  split
  · rename_i h
    have h1 := UInt32.le_iff_toNat_le.mp h.1
    have h2 := UInt32.le_iff_toNat_le.mp h.2
    simp only [← UInt32.toNat_inj, UInt32.toNat_add, UInt32.toNat_sub]
    simp at *
    omega
  · rename_i h
    simp only [UInt32.le_iff_toNat_le, ge_iff_le,← UInt32.toNat_inj] at *
    simp at *
    omega

theorem lower_s (c : Char) : c.toLower = 's' ↔ c = 's' ∨ c = 'S' := by
  rw [Char.ext_iff, Char.ext_iff, Char.ext_iff]
  unfold Char.toLower
  split
  · rename_i h
    have h1 := UInt32.le_iff_toNat_le.mp h.1
    have h2 := UInt32.le_iff_toNat_le.mp h.2
    simp only [← UInt32.toNat_inj, UInt32.toNat_add, UInt32.toNat_sub]
    simp at *
    omega
  · rename_i h
    simp only [UInt32.le_iff_toNat_le, ge_iff_le,← UInt32.toNat_inj] at *
    simp at *
    omega

theorem toLower_rs (s : String) : s.toLower = "rs" ↔ s = "rs" ∨ s = "RS" ∨ s = "Rs" ∨ s = "rS" := by
  have hl : s.toLower.toList = s.toList.map Char.toLower := by
    unfold String.toLower
    simp
  have e : ∀ t : String, s = t ↔ s.toList = t.toList := fun t => String.toList_inj.symm
  rw [← String.toList_inj, hl, e, e, e, e]
  rcases s.toList with _ | ⟨a, _ | ⟨b, _ | ⟨d, l⟩⟩⟩
  · simp
  · simp
  · simp [lower_r, lower_s]
    tauto
  · simp

section

variable {T K A : Type*} [LinearOrder T] [OrderTop T] [Zero T] [EmptyCollection A]

/-! ## Specification -/

/-- The dict of keyword arguments has been given a number of servers, or nothing has changed. -/
def Filled (kw kw' : QKw T) : Prop :=
  kw' = kw ∨ kw.numServers = none ∧ ∃ n : Int, 1 ≤ n ∧ kw' = { kw with numServers := some (.int n) }

theorem Filled.refl (kw : QKw T) : Filled kw kw := .inl rfl

theorem Filled.trans {a b c : QKw T} (h : Filled a b) (h' : Filled b c) : Filled a c := by
  rcases h with rfl | ⟨h1, n, hn, rfl⟩
  · exact h'
  · rcases h' with rfl | ⟨h2, _⟩
    · exact .inr ⟨h1, n, hn, rfl⟩
    · simp at h2

/-- The values of all dicts `q_args` exist. -/
def Objs.Valid (o : Objs T K) : Prop := ∀ r k i, Dict.get? (o.args r) k = some i → i < o.next

/-- Nothing given has been changed: items have been added only (classes: the default ones; arguments: empty dicts;
keyword arguments: `num_servers` and `colors`; colours that were missing). -/
structure Objs.Kept (o o' : Objs T K) : Prop where
  next : o.next ≤ o'.next
  classes : ∀ r k v, Dict.get? (o.classes r) k = some v → Dict.get? (o'.classes r) k = some v
  newClasses : ∀ r k, Dict.get? (o.classes r) k = none →
    Dict.get? (o'.classes r) k = none ∨ Dict.get? (o'.classes r) k = Dict.get? dfltClasses k
  args : ∀ r k i, Dict.get? (o.args r) k = some i → Dict.get? (o'.args r) k = some i
  newArgs : ∀ r k, Dict.get? (o.args r) k = none →
    Dict.get? (o'.args r) k = none ∨ ∃ i, o.next ≤ i ∧ i < o'.next ∧ Dict.get? (o'.args r) k = some i
  kws : ∀ i < o.next, Filled (o.kws i).kw (o'.kws i).kw
  newKws : ∀ i, o.next ≤ i → i < o'.next → Filled {} (o'.kws i).kw
  colors : ∀ i < o.next, ∀ d, (o.kws i).colors = some d → (o'.kws i).colors = some d
  colours : ∀ d key v, o.colours d key = some v → o'.colours d key = some v

theorem Objs.Kept.refl (o : Objs T K) : o.Kept o :=
  ⟨le_rfl, fun _ _ _ h => h, fun _ _ h => .inl h, fun _ _ _ h => h, fun _ _ h => .inl h, fun _ _ => .refl _,
    fun i h h' => absurd h' (by omega), fun _ _ _ h => h, fun _ _ _ h => h⟩

theorem Objs.Kept.trans {o o' o'' : Objs T K} (h : o.Kept o') (h' : o'.Kept o'') : o.Kept o'' where
  next := h.next.trans h'.next
  classes r k v hv := h'.classes r k v (h.classes r k v hv)
  newClasses r k hn := by
    rcases h.newClasses r k hn with e | e
    · exact h'.newClasses r k e
    · cases hd : Dict.get? dfltClasses k with
      | none =>
        rw [hd] at e
        rcases h'.newClasses r k e with e' | e'
        · exact .inl e'
        · exact .inr (e'.trans hd)
      | some v => exact .inr (h'.classes r k v (e.trans hd))
  args r k i hv := h'.args r k i (h.args r k i hv)
  newArgs r k hn := by
    rcases h.newArgs r k hn with e | ⟨i, h1, h2, e⟩
    · rcases h'.newArgs r k e with e | ⟨i, h1, h2, e⟩
      · exact .inl e
      · exact .inr ⟨i, h.next.trans h1, h2, e⟩
    · exact .inr ⟨i, h1, h2.trans_le h'.next, h'.args r k i e⟩
  kws i hi := (h.kws i hi).trans (h'.kws i (hi.trans_le h.next))
  newKws i h1 h2 := by
    by_cases hi : i < o'.next
    · exact (h.newKws i h1 hi).trans (h'.kws i hi)
    · exact h'.newKws i (by omega) h2
  colors i hi d hd := h'.colors i (hi.trans_le h.next) d (h.colors i hi d hd)
  colours d key v hv := h'.colours d key v (h.colours d key v hv)

/-! ## The steps -/

theorem takeClasses_get (o : Objs T K) (r : Option Nat) (et : Int) :
    Dict.get? (takeClasses o r).2 et = match r with
      | none => Dict.get? dfltClasses et
      | some r => (Dict.get? (o.classes r) et).or (Dict.get? dfltClasses et) := by
  cases r with
  | none => rfl
  | some r => exact get?_complete _ _ _

theorem takeClasses_kept (o : Objs T K) (r : Option Nat) : o.Kept (takeClasses o r).1 ∧
    (takeClasses o r).1.args = o.args ∧ (takeClasses o r).1.kws = o.kws ∧ (takeClasses o r).1.next = o.next := by
  cases r with
  | none => exact ⟨.refl _, rfl, rfl, rfl⟩
  | some r =>
    refine ⟨⟨le_rfl, fun r' k v h => ?_, fun r' k h => ?_, fun _ _ _ h => h, fun _ _ h => .inl h, fun _ _ => .refl _,
      fun i h h' => absurd h (not_le.mpr h'), fun _ _ _ h => h, fun _ _ _ h => h⟩, rfl, rfl, rfl⟩
    · simp only [takeClasses, Function.update_apply]
      split
      · rename_i e; subst e; rw [get?_complete, h]; rfl
      · exact h
    · simp only [takeClasses, Function.update_apply]
      split
      · rename_i e; subst e; rw [get?_complete, h]; exact .inr rfl
      · exact .inl h

/-- What adding empty dicts does. -/
structure Added (o : Objs T K) (d : Dict Int Nat) (ks : List Int) (o' : Objs T K) (d' : Dict Int Nat) : Prop where
  classes : o'.classes = o.classes
  args : o'.args = o.args
  colours : o'.colours = o.colours
  next : o.next ≤ o'.next
  old : ∀ i < o.next, o'.kws i = o.kws i
  fresh : ∀ i, o.next ≤ i → i < o'.next → o'.kws i = ⟨{}, none⟩
  keep : ∀ k i, Dict.get? d k = some i → Dict.get? d' k = some i
  new : ∀ k, Dict.get? d k = none → k ∈ ks → ∃ i, o.next ≤ i ∧ i < o'.next ∧ Dict.get? d' k = some i
  out : ∀ k, Dict.get? d k = none → k ∉ ks → Dict.get? d' k = none

theorem added (ks : List Int) (o : Objs T K) (d : Dict Int Nat) :
    Added o d ks (ks.foldl addEmpty (o, d)).1 (ks.foldl addEmpty (o, d)).2 := by
  induction ks generalizing o d with
  | nil =>
    exact ⟨rfl, rfl, rfl, le_rfl, fun _ _ => rfl, fun i h h' => absurd h' (not_lt.mpr h), fun _ _ h => h,
      fun k _ h => by simp at h, fun _ h _ => h⟩
  | cons k ks ih =>
    rw [List.foldl_cons]
    by_cases hk : (Dict.get? d k).isSome
    · have e : addEmpty (o, d) k = (o, d) := by simp [addEmpty, hk]
      rw [e]
      have h := ih o d
      refine ⟨h.classes, h.args, h.colours, h.next, h.old, h.fresh, h.keep, fun k' hn hm => ?_, fun k' hn hm => ?_⟩
      · rcases List.mem_cons.mp hm with rfl | hm
        · rw [hn] at hk; cases hk
        · exact h.new k' hn hm
      · exact h.out k' hn fun hm' => hm (List.mem_cons_of_mem _ hm')
    · have e : addEmpty (o, d) k = ({ o with kws := Function.update o.kws o.next ⟨{}, none⟩, next := o.next + 1 },
          Dict.set d k o.next) := by simp [addEmpty, hk]
      rw [e]
      have hk' : Dict.get? d k = none := by simpa using hk
      have h := ih { o with kws := Function.update o.kws o.next ⟨{}, none⟩, next := o.next + 1 } (Dict.set d k o.next)
      have hnx : o.next + 1 ≤ _ := h.next
      have hself : Dict.get? (Dict.set d k o.next) k = some o.next := by rw [Dict.get?_set]; simp
      refine ⟨h.classes, h.args, h.colours, by omega, fun i hi => ?_, fun i h1 h2 => ?_, fun k' i hi => ?_,
        fun k' hn hm => ?_, fun k' hn hm => ?_⟩
      · rw [h.old i (Nat.lt_succ_of_lt hi)]
        simp [hi.ne]
      · by_cases hi : i = o.next
        · subst hi
          rw [h.old _ (Nat.lt_succ_self _)]
          simp
        · exact h.fresh i (by show o.next + 1 ≤ i; omega) h2
      · refine h.keep k' i ?_
        rw [Dict.get?_set]
        have : k' ≠ k := by rintro rfl; rw [hk'] at hi; cases hi
        simp [this, hi]
      · by_cases hkk : k' = k
        · subst hkk
          exact ⟨o.next, le_rfl, by omega, h.keep _ _ hself⟩
        · rcases List.mem_cons.mp hm with e | hm
          · exact absurd e hkk
          · obtain ⟨i, h1, h2, h3⟩ := h.new k' (by rw [Dict.get?_set]; simp [hkk, hn]) hm
            exact ⟨i, (Nat.le_succ _).trans h1, h2, h3⟩
      · have hkk : k' ≠ k := fun e => hm (by simp [e])
        exact h.out k' (by rw [Dict.get?_set]; simp [hkk, hn]) fun hm' => hm (List.mem_cons_of_mem _ hm')

/-- The keyword arguments that the constructor finds for a type. -/
theorem takeArgs_spec {o : Objs T K} (ho : o.Valid) (cls : Dict Int QClass) (r : Option Nat) :
    o.Kept (takeArgs o cls r).1 ∧ (takeArgs o cls r).1.Valid ∧ (takeArgs o cls r).1.classes = o.classes ∧
    (∀ i < o.next, (takeArgs o cls r).1.kws i = o.kws i) ∧
    (∀ et i, Dict.get? (takeArgs o cls r).2 et = some i → i < (takeArgs o cls r).1.next) ∧
    ∀ et, (Dict.get? (takeArgs o cls r).2 et).map (fun i => ((takeArgs o cls r).1.kws i).kw) = match r with
      | none => if et ∈ [(0 : Int), 1, 2, 3, 4] then some {} else none
      | some r => match Dict.get? (o.args r) et with
        | some i => some (o.kws i).kw
        | none => if (Dict.get? cls et).isSome then some {} else none := by
  cases r with
  | none =>
    have h := added [0, 1, 2, 3, 4] o []
    simp only [takeArgs]
    generalize hs : ([0, 1, 2, 3, 4] : List Int).foldl addEmpty (o, []) = s at h ⊢
    refine ⟨⟨h.next, fun r k v hv => h.classes ▸ hv, fun r k hv => .inl (h.classes ▸ hv), fun r k v hv => h.args ▸ hv,
      fun r k hv => .inl (h.args ▸ hv), fun i hi => by rw [h.old i hi]; exact .refl _,
      fun i h1 h2 => by rw [h.fresh i h1 h2]; exact .refl _, fun i hi d hd => by rw [h.old i hi]; exact hd,
      fun d key v hv => h.colours ▸ hv⟩, fun r k i hi => (ho r k i (h.args ▸ hi)).trans_le h.next, h.classes, h.old,
      fun et i hi => ?_, fun et => ?_⟩
    · by_cases hm : et ∈ [(0 : Int), 1, 2, 3, 4]
      · obtain ⟨j, h1, h2, h3⟩ := h.new et rfl hm
        rw [h3] at hi; cases hi; exact h2
      · rw [h.out et rfl hm] at hi; cases hi
    · split
      · rename_i hm
        obtain ⟨j, h1, h2, h3⟩ := h.new et rfl hm
        rw [h3, Option.map_some, h.fresh j h1 h2]
      · rename_i hm
        rw [h.out et rfl hm]; rfl
  | some r =>
    have h := added (Dict.keys cls) o (o.args r)
    simp only [takeArgs]
    generalize hs : (Dict.keys cls).foldl addEmpty (o, o.args r) = s at h ⊢
    have hlt : ∀ et i, Dict.get? s.2 et = some i → i < s.1.next := by
      intro et i hi
      cases hd : Dict.get? (o.args r) et with
      | some j =>
        rw [h.keep et j hd] at hi
        obtain rfl := Option.some.inj hi
        exact (ho r et j hd).trans_le h.next
      | none =>
        by_cases hm : et ∈ Dict.keys cls
        · obtain ⟨j, h1, h2, h3⟩ := h.new et hd hm
          rw [h3] at hi; cases hi; exact h2
        · rw [h.out et hd hm] at hi; cases hi
    refine ⟨⟨h.next, fun r k v hv => by simpa only [h.classes] using hv,
      fun r k hv => .inl (by simpa only [h.classes] using hv), fun r' k v hv => ?_,
      fun r' k hv => ?_, fun i hi => by simp only [h.old i hi]; exact .refl _,
      fun i h1 h2 => by simp only [h.fresh i h1 h2]; exact .refl _, fun i hi d hd => by simp only [h.old i hi]; exact hd,
      fun d key v hv => by simpa only [h.colours] using hv⟩, fun r' k i hi => ?_, h.classes, h.old, hlt, fun et => ?_⟩
    · simp only [Function.update_apply]
      split
      · rename_i e; subst e; exact h.keep k v hv
      · rw [h.args]; exact hv
    · simp only [Function.update_apply]
      split
      · rename_i e; subst e
        by_cases hm : k ∈ Dict.keys cls
        · exact .inr (h.new k hv hm)
        · exact .inl (h.out k hv hm)
      · rw [h.args]; exact .inl hv
    · simp only [Function.update_apply] at hi
      split at hi
      · exact hlt k i hi
      · rw [h.args] at hi; exact (ho r' k i hi).trans_le h.next
    · cases hd : Dict.get? (o.args r) et with
      | some j =>
        simp only
        rw [h.keep et j hd, Option.map_some, h.old j (ho r et j hd)]
      | none =>
        simp only [Dict.get?_isSome]
        split
        · rename_i hm
          obtain ⟨j, h1, h2, h3⟩ := h.new et hd hm
          rw [h3, Option.map_some, h.fresh j h1 h2]
        · rename_i hm
          rw [h.out et hd hm]; rfl

/-- What happens to objects when colours and numbers of servers are entered. -/
structure Entered (o o' : Objs T K) : Prop where
  classes : o'.classes = o.classes
  args : o'.args = o.args
  next : o'.next = o.next
  kws : ∀ i, Filled (o.kws i).kw (o'.kws i).kw
  colors : ∀ i d, (o.kws i).colors = some d → (o'.kws i).colors = some d
  colours : ∀ d key v, o.colours d key = some v → o'.colours d key = some v

theorem Entered.refl (o : Objs T K) : Entered o o :=
  ⟨rfl, rfl, rfl, fun _ => .refl _, fun _ _ h => h, fun _ _ _ h => h⟩

theorem Entered.trans {o o' o'' : Objs T K} (h : Entered o o') (h' : Entered o' o'') : Entered o o'' :=
  ⟨h'.classes.trans h.classes, h'.args.trans h.args, h'.next.trans h.next, fun i => (h.kws i).trans (h'.kws i),
    fun i d hd => h'.colors i d (h.colors i d hd), fun d key v hv => h'.colours d key v (h.colours d key v hv)⟩

theorem Entered.kept {o o' : Objs T K} (h : Entered o o') : o.Kept o' :=
  ⟨h.next.ge, fun r k v hv => h.classes ▸ hv, fun r k hv => .inl (h.classes ▸ hv), fun r k v hv => h.args ▸ hv,
    fun r k hv => .inl (h.args ▸ hv), fun i _ => h.kws i, fun i h1 h2 => absurd h1 (by rw [h.next] at h2; omega),
    fun i _ => h.colors i, h.colours⟩

theorem Entered.valid {o o' : Objs T K} (h : Entered o o') (ho : o.Valid) : o'.Valid := by
  intro r k i hi
  rw [h.next]
  exact ho r k i (h.args ▸ hi)

theorem dfltColours_entered (o : Objs T K) (p : Int × Nat) :
    Entered o (dfltColours o p) ∧ ∀ i, ((dfltColours o p).kws i).kw = (o.kws i).kw := by
  unfold dfltColours
  split
  · exact ⟨.refl _, fun _ => rfl⟩
  · rename_i hc
    have hkw : ∀ i, (Function.update o.kws p.2 { o.kws p.2 with colors := some (networkDict p.1) } i).kw = (o.kws i).kw := by
      intro i
      simp only [Function.update_apply]
      split
      · rename_i e; rw [e]
      · rfl
    refine ⟨⟨rfl, rfl, rfl, fun i => .inl (hkw i), fun i d hd => ?_, fun _ _ _ h => h⟩, hkw⟩
    simp only [Function.update_apply]
    split
    · rename_i e; subst e; rw [hd] at hc; simp at hc
    · exact hd

theorem dfltColours_fold (d : List (Int × Nat)) (o : Objs T K) :
    Entered o (d.foldl dfltColours o) ∧ ∀ i, ((d.foldl dfltColours o).kws i).kw = (o.kws i).kw := by
  induction d generalizing o with
  | nil => exact ⟨.refl _, fun _ => rfl⟩
  | cons p d ih =>
    rw [List.foldl_cons]
    obtain ⟨h1, h2⟩ := dfltColours_entered o p
    obtain ⟨h3, h4⟩ := ih (dfltColours o p)
    exact ⟨h1.trans h3, fun i => (h4 i).trans (h2 i)⟩

theorem giveServers_entered (o : Objs T K) (cap : Option (Nat → Option Nat)) (v r : Nat) :
    Entered o (giveServers o cap v r) ∧ (cap = none → giveServers o cap v r = o) := by
  unfold giveServers
  split
  · rename_i f hn
    refine ⟨⟨rfl, rfl, rfl, fun i => ?_, fun i d hd => ?_, fun _ _ _ h => h⟩, fun h => by cases h⟩
    · simp only [Function.update_apply]
      split
      · rename_i e; subst e; exact .inr ⟨hn, max ((f v).getD 0) 1, by simp, rfl⟩
      · exact .refl _
    · simp only [Function.update_apply]
      split
      · rename_i e; subst e; exact hd
      · exact hd
  · exact ⟨.refl _, fun _ => rfl⟩

theorem newColours_kept (D : Dicts K) (c : QClass) (r : Option DictRef) (d : DictRef) (key : ColKey) (v : K)
    (h : D d key = some v) : (newColours D c r).1 d key = some v := by
  cases r with
  | none => exact h
  | some r =>
    simp only [newColours]
    split
    · rename_i e; subst e; rw [h]
    · exact h

theorem colours_entered (o : Objs T K) (c : QClass) (r : Option DictRef) :
    Entered o { o with colours := (newColours o.colours c r).1 } :=
  ⟨rfl, rfl, rfl, fun _ => .refl _, fun _ _ h => h, fun d key v h => newColours_kept _ _ _ d key v h⟩

theorem newQueue_entered (arr svc : Nat → T → T) (g : QGraph A) (cls : Dict Int QClass) (args : Dict Int Nat)
    (cap : Option (Nat → Option Nat)) (e : Nat × Nat) (o : Objs T K) (qs : List (Option (NewQueue T))) :
    Entered o (newQueue arr svc g cls args cap e o qs).1 := by
  unfold newQueue
  split
  · split
    · exact .refl _
    · rename_i r _
      have h := (giveServers_entered o cap e.2 r).1
      simp only
      split
      · exact h
      · split
        · exact h
        · split
          · exact h
          · exact h.trans (colours_entered _ _ _)
  · exact .refl _

theorem newQueues_entered (arr svc : Nat → T → T) (g : QGraph A) (cls : Dict Int QClass) (args : Dict Int Nat)
    (cap : Option (Nat → Option Nat)) (es : List (Nat × Nat)) (o : Objs T K) (qs : List (Option (NewQueue T))) :
    Entered o (newQueues arr svc g cls args cap es o qs).1 := by
  induction es generalizing o qs with
  | nil => exact .refl _
  | cons e es ih =>
    have h := newQueue_entered arr svc g cls args cap e o qs
    unfold newQueues
    split
    · rename_i o' err he; rw [he] at h; exact h
    · rename_i o' qs' he; rw [he] at h; exact h.trans (ih o' qs')

/-! ## What is given is kept -/

/-- The objects before the graph is looked at. -/
def preObjs (o : Objs T K) (c : NetCall A) : Objs T K :=
  (takeArgs (takeClasses o c.classes).1 (takeClasses o c.classes).2 c.args).2.foldl dfltColours
    (takeArgs (takeClasses o c.classes).1 (takeClasses o c.classes).2 c.args).1

/-- The classes used. -/
def usedClasses (o : Objs T K) (c : NetCall A) : Dict Int QClass := (takeClasses o c.classes).2

/-- The arguments used. -/
def usedArgs (o : Objs T K) (c : NetCall A) : Dict Int Nat :=
  (takeArgs (takeClasses o c.classes).1 (takeClasses o c.classes).2 c.args).2

theorem newNet_eq (arr svc : Nat → T → T) (o : Objs T K) (c : NetCall A) : newNet arr svc o c =
    match blockingOf c.blocking with
    | .error e => (o, .error e)
    | .ok bas =>
      match prepare c.g c.cap c.adjust with
      | .error e => (preObjs o c, .error e)
      | .ok (g, cap) =>
        match newQueues arr svc g (usedClasses o c) (usedArgs o c) cap g.adj.edges (preObjs o c)
            (List.replicate g.adj.edges.length none) with
        | (o, .error e) => (o, .error e)
        | (o, .ok qs) =>
          match g.allOut with
          | .error e => (o, .error e)
          | .ok out => (o, .ok ⟨g, qs, out, bas⟩) := rfl

/-- The class that is used for a type: the one given, or else the default. -/
def classFor (o : Objs T K) (r : Option Nat) (et : Int) : Option QClass :=
  match r with
  | none => Dict.get? dfltClasses et
  | some r => match Dict.get? (o.classes r) et with
    | some c => some c
    | none => Dict.get? dfltClasses et

/-- The keyword arguments that are used for a type that has a class: those given, or else none; without `q_args` only
the types 0, ..., 4 can be used. -/
def kwFor (o : Objs T K) (r : Option Nat) (et : Int) : Option (QKw T) :=
  match r with
  | none => if 0 ≤ et ∧ et ≤ 4 then some {} else none
  | some r => match Dict.get? (o.args r) et with
    | some i => some (o.kws i).kw
    | none => some {}

theorem usedClasses_get (o : Objs T K) (c : NetCall A) (et : Int) :
    Dict.get? (usedClasses o c) et = classFor o c.classes et := by
  unfold usedClasses classFor
  rw [takeClasses_get]
  split
  · rfl
  · rename_i r _
    cases Dict.get? (o.classes r) et <;> rfl

theorem pre_spec {o : Objs T K} (ho : o.Valid) (c : NetCall A) :
    o.Kept (preObjs o c) ∧ (preObjs o c).Valid ∧ (∀ i < o.next, ((preObjs o c).kws i).kw = (o.kws i).kw) ∧
    (∀ et i, Dict.get? (usedArgs o c) et = some i → i < (preObjs o c).next) ∧
    ∀ et cl, classFor o c.classes et = some cl →
      (Dict.get? (usedArgs o c) et).map (fun i => ((preObjs o c).kws i).kw) = kwFor o c.args et := by
  obtain ⟨k1, ka, kk, kn⟩ := takeClasses_kept o c.classes
  have hv : (takeClasses o c.classes).1.Valid := by
    intro r k i hi
    rw [kn]
    exact ho r k i (ka ▸ hi)
  obtain ⟨t1, t2, -, t3, t4, t5⟩ := takeArgs_spec hv (takeClasses o c.classes).2 c.args
  obtain ⟨d1, d2⟩ := dfltColours_fold (usedArgs o c)
    (takeArgs (takeClasses o c.classes).1 (takeClasses o c.classes).2 c.args).1
  refine ⟨(k1.trans t1).trans d1.kept, d1.valid t2, fun i hi => ?_, fun et i hi => ?_, fun et cl hcl => ?_⟩
  · rw [← kk, ← t3 i (kn ▸ hi)]
    exact d2 i
  · show i < ((usedArgs o c).foldl dfltColours _).next
    rw [d1.next]; exact t4 et i hi
  · have : ∀ i, ((preObjs o c).kws i).kw =
        ((takeArgs (takeClasses o c.classes).1 (takeClasses o c.classes).2 c.args).1.kws i).kw := d2
    simp only [this]
    refine (t5 et).trans ?_
    unfold kwFor
    rw [ka, kk]
    split
    · have : (et ∈ [(0 : Int), 1, 2, 3, 4]) ↔ 0 ≤ et ∧ et ≤ 4 := by
        simp only [List.mem_cons, List.not_mem_nil, or_false]; omega
      simp only [this]
    · rename_i r hr
      split
      · rfl
      · rw [← usedClasses_get] at hcl
        have : Dict.get? (takeClasses o c.classes).2 et = some cl := hcl
        simp [this]

theorem newNet_kept (arr svc : Nat → T → T) {o : Objs T K} (ho : o.Valid) (c : NetCall A) :
    o.Kept (newNet arr svc o c).1 ∧ (newNet arr svc o c).1.Valid := by
  obtain ⟨k, v, -⟩ := pre_spec ho c
  rw [newNet_eq]
  split
  · exact ⟨.refl _, ho⟩
  · split
    · exact ⟨k, v⟩
    · rename_i g cap _
      have h := newQueues_entered arr svc g (usedClasses o c) (usedArgs o c) cap g.adj.edges (preObjs o c)
        (List.replicate g.adj.edges.length none)
      split
      · rename_i o' e he; rw [he] at h; exact ⟨k.trans h.kept, h.valid v⟩
      · rename_i o' qs he
        rw [he] at h
        split <;> exact ⟨k.trans h.kept, h.valid v⟩

/-- C127: making networks, whether it succeeds or raises, changes nothing the user has given: it adds the default
classes to `q_classes`, empty dicts to `q_args`, `num_servers` and `colors` to dicts of arguments that have none, and
colours to dicts of colours. -/
theorem C127_given_kept (arr svc : Nat → T → T) {o : Objs T K} (ho : o.Valid) (cs : List (NetCall A)) :
    o.Kept (newNets arr svc o cs) ∧ (newNets arr svc o cs).Valid := by
  induction cs generalizing o with
  | nil => exact ⟨.refl _, ho⟩
  | cons c cs ih =>
    obtain ⟨h1, h2⟩ := newNet_kept arr svc ho c
    obtain ⟨h3, h4⟩ := ih h2
    exact ⟨h1.trans h3, h4⟩

/-! ## The queues -/

theorem newQueue_kws (arr svc : Nat → T → T) (g : QGraph A) (cls : Dict Int QClass) (args : Dict Int Nat)
    (e : Nat × Nat) (o : Objs T K) (qs : List (Option (NewQueue T))) :
    (newQueue arr svc g cls args none e o qs).1.kws = o.kws := by
  unfold newQueue
  split
  · split
    · rfl
    · rename_i r _
      have h := (giveServers_entered o none e.2 r).2 rfl
      rw [h]
      simp only
      split
      · rfl
      · split
        · rfl
        · split <;> rfl
  · rfl

theorem newQueues_spec (arr svc : Nat → T → T) {g : QGraph A} (hg : Numbered g) {cls : Dict Int QClass}
    {args : Dict Int Nat} {cap : Option (Nat → Option Nat)} :
    ∀ (es : List (Nat × Nat)) (o o' : Objs T K) (qs res : List (Option (NewQueue T))),
    es.Nodup → qs.length = g.nE → newQueues arr svc g cls args cap es o qs = (o', .ok res) →
    res.length = g.nE ∧
    (∀ e k, Dict.get? g.index e = some k → e ∉ es → res[k]? = qs[k]?) ∧
    ∀ e ∈ es, ∃ et k r cl kw q d, typeAt g e = some et ∧ Dict.get? g.index e = some k ∧ Dict.get? args et = some r ∧
      Dict.get? cls et = some cl ∧ Filled (o.kws r).kw kw ∧ (cap = none → kw = (o.kws r).kw) ∧ kw.edge = none ∧
      cl.make arr svc { kw with edge := some ⟨e.1, e.2, k, et⟩ } = .ok q ∧ res[k]? = some (some (q, d)) := by
  intro es
  induction es with
  | nil =>
    intro o o' qs res _ hl h
    simp only [newQueues, Prod.mk.injEq, Except.ok.injEq] at h
    obtain ⟨-, rfl⟩ := h
    exact ⟨hl, fun _ _ _ _ => rfl, fun e he => by simp at he⟩
  | cons e es ih =>
    intro o o' qs res hnd hl h
    have hent := newQueue_entered arr svc g cls args cap e o qs
    unfold newQueues at h
    split at h
    · simp at h
    rename_i o1 qs1 h1
    have hk1 : cap = none → o1.kws = o.kws := by
      rintro rfl
      have := newQueue_kws arr svc g cls args e o qs
      rw [h1] at this; exact this
    rw [h1] at hent
    unfold newQueue at h1
    split at h1
    rotate_left
    · simp at h1
    rename_i et k hty hix
    split at h1
    · simp at h1
    rename_i r hr
    have hgs := giveServers_entered o cap e.2 r
    generalize giveServers o cap e.2 r = o2 at hgs h1
    simp only at h1
    split at h1
    · simp at h1
    rename_i cl hcl
    split at h1
    · simp at h1
    rename_i hed
    split at h1
    · simp at h1
    rename_i q hq
    simp only [Prod.mk.injEq, Except.ok.injEq] at h1
    obtain ⟨-, rfl⟩ := h1
    obtain ⟨r1, r2, r3⟩ := ih o1 o' _ res (List.nodup_cons.mp hnd).2 (by simp [hl]) h
    have hlt : k < g.nE := hg.lt _ _ hix
    refine ⟨r1, fun e' k' hk' he' => ?_, fun e' he' => ?_⟩
    · rw [r2 e' k' hk' fun hm => he' (List.mem_cons_of_mem _ hm)]
      have : k ≠ k' := by
        rintro rfl
        exact he' (by rw [hg.inj _ _ _ hk' hix]; simp)
      simp [this]
    · rcases List.mem_cons.mp he' with rfl | he'
      · refine ⟨et, k, r, cl, _, q, (newColours o2.colours cl (o2.kws r).colors).2, hty, hix, hr, hcl, hgs.1.kws r, fun hc => by rw [hgs.2 hc], by simpa using hed,
          hq, ?_⟩
        rw [r2 _ k hix (List.nodup_cons.mp hnd).1]
        simp [hl, hlt]
      · obtain ⟨et', k', r', cl', kw', q', d', a1, a2, a3, a4, a5, a6, a7, a8, a9⟩ := r3 e' he'
        refine ⟨et', k', r', cl', kw', q', d', a1, a2, a3, a4, (hent.kws r').trans a5, fun hc => ?_, a7, a8, a9⟩
        rw [a6 hc, hk1 hc]

theorem newNet_parts {arr svc : Nat → T → T} {o o' : Objs T K} {c : NetCall A} {m : NewNet A T}
    (h : newNet arr svc o c = (o', .ok m)) :
    ∃ cap, blockingOf c.blocking = .ok m.bas ∧ prepare c.g c.cap c.adjust = .ok (m.graph, cap) ∧
      newQueues arr svc m.graph (usedClasses o c) (usedArgs o c) cap m.graph.adj.edges (preObjs o c)
        (List.replicate m.graph.adj.edges.length none) = (o', .ok m.queues) ∧ m.graph.allOut = .ok m.out := by
  rw [newNet_eq] at h
  split at h
  · simp at h
  rename_i bas hb
  split at h
  · simp at h
  rename_i g cap hp
  split at h
  · simp at h
  rename_i o1 qs hq
  split at h
  · simp at h
  rename_i out ho
  simp only [Prod.mk.injEq, Except.ok.injEq] at h
  obtain ⟨rfl, rfl⟩ := h
  exact ⟨cap, hb, hp, hq, ho⟩

/-- C127: in a network every edge has a type `et`, and the queue at the number of the edge is what the class for this
type (`q_classes[et]` or the default) makes of the keyword arguments for this type (`q_args[et]` or none) and the edge.
The arguments are used as given; only `num_servers`, if not given, may be added, and that only without `adjust_graph` if
vertices have capacities. -/
theorem C127_queues {arr svc : Nat → T → T} {o o' : Objs T K} (ho : o.Valid) {c : NetCall A} (hg : Built c.g)
    {m : NewNet A T} (h : newNet arr svc o c = (o', .ok m)) :
    m.queues.length = m.graph.adj.edges.length ∧
    ∀ u v x, m.graph.adj.look u v = some x → ∃ et k cl kw kw' q d,
      x.etype = some et ∧ Dict.get? m.graph.index (u, v) = some k ∧ m.queues[k]? = some (some (q, d)) ∧
      (match c.classes with
        | none => Dict.get? dfltClasses et = some cl
        | some r => Dict.get? (o.classes r) et = some cl ∨
            Dict.get? (o.classes r) et = none ∧ Dict.get? dfltClasses et = some cl) ∧
      (match c.args with
        | none => 0 ≤ et ∧ et ≤ 4 ∧ kw = {}
        | some r => (∃ i, Dict.get? (o.args r) et = some i ∧ kw = (o.kws i).kw) ∨
            Dict.get? (o.args r) et = none ∧ kw = {}) ∧
      (kw' = kw ∨ c.adjust = false ∧ c.cap ≠ none ∧ kw.numServers = none ∧
        ∃ n : Int, 1 ≤ n ∧ kw' = { kw with numServers := some (.int n) }) ∧
      cl.make arr svc { kw' with edge := some ⟨u, v, k, et⟩ } = .ok q := by
  obtain ⟨cap, -, hp, hq, -⟩ := newNet_parts h
  obtain ⟨hb, hadj, hraw⟩ := prepare_built hg hp
  have hn := Numbered.of_built hb
  obtain ⟨s1, -, s3⟩ := newQueues_spec arr svc hn _ _ _ _ _ (Adj.edges_nodup hn.ok) (by simp [hn.count]) hq
  obtain ⟨-, -, -, -, p5⟩ := pre_spec ho c
  refine ⟨s1.trans hn.count, fun u v x hx => ?_⟩
  obtain ⟨et, k, r, cl, kw', q, d, a1, a2, a3, a4, a5, a6, a7, a8, a9⟩ :=
    s3 (u, v) ((Adj.mem_edges hn.ok).mpr (by rw [hx]; rfl))
  rw [usedClasses_get] at a4
  have hk := p5 et cl a4
  rw [a3, Option.map_some] at hk
  refine ⟨et, k, cl, ((preObjs o c).kws r).kw, kw', q, d, by simpa [typeAt, hx] using a1, a2, a9, ?_, ?_, ?_, a8⟩
  · unfold classFor at a4
    split at a4
    · exact a4
    · rename_i r' hr'
      split at a4
      · rename_i hc; exact .inl (hc.trans a4)
      · rename_i hc; exact .inr ⟨hc, a4⟩
  · unfold kwFor at hk
    split at hk
    · split at hk
      · rename_i he; exact ⟨he.1, he.2, Option.some.inj hk⟩
      · cases hk
    · rename_i r' hr'
      split at hk
      · rename_i i hi; exact .inl ⟨i, hi, Option.some.inj hk⟩
      · rename_i hi; exact .inr ⟨hi, Option.some.inj hk⟩
  · cases hcap : cap with
    | none => exact .inl (a6 hcap)
    | some f =>
      rcases a5 with a5 | ⟨b1, b2⟩
      · exact .inl a5
      · cases had : c.adjust with
        | true => rw [(hadj had).1] at hcap; cases hcap
        | false =>
          refine .inr ⟨rfl, ?_, b1, b2⟩
          rw [← (hraw had).1, hcap]; simp

/-! ## The same dicts again -/

/-- The class and the arguments used for a type. -/
def useFor (o : Objs T K) (c : NetCall A) (et : Int) : Option (QClass × QKw T) :=
  match classFor o c.classes et, kwFor o c.args et with
  | some cl, some kw => some (cl, kw)
  | _, _ => none

/-- The queues in terms of what is used for each type. -/
def idealQueues (arr svc : Nat → T → T) (g : QGraph A) (use : Int → Option (QClass × QKw T)) :
    List (Nat × Nat) → List (Option (QCfg T)) → Except Err (List (Option (QCfg T)))
  | [], qs => .ok qs
  | e :: es, qs =>
    match typeAt g e, Dict.get? g.index e with
    | some et, some k =>
      match use et with
      | none => .error .keyError
      | some (cl, kw) =>
        if kw.edge.isSome then .error .typeError
        else
          match cl.make arr svc { kw with edge := some ⟨e.1, e.2, k, et⟩ } with
          | .error err => .error err
          | .ok q => idealQueues arr svc g use es (qs.set k (some q))
    | _, _ => .error .keyError

/-- The parameters of the queues, without their colours. -/
def cfgs (qs : List (Option (NewQueue T))) : List (Option (QCfg T)) := qs.map (Option.map Prod.fst)

theorem newQueues_ideal (arr svc : Nat → T → T) (g : QGraph A) {cls : Dict Int QClass} {args : Dict Int Nat}
    {use : Int → Option (QClass × QKw T)} (es : List (Nat × Nat)) (o : Objs T K) (qs : List (Option (NewQueue T)))
    (hu : ∀ et, use et = (Dict.get? cls et).bind fun cl => (Dict.get? args et).map fun r => (cl, (o.kws r).kw)) :
    (newQueues arr svc g cls args none es o qs).1.kws = o.kws ∧
    (newQueues arr svc g cls args none es o qs).2.map cfgs = idealQueues arr svc g use es (cfgs qs) := by
  induction es generalizing o qs with
  | nil => exact ⟨rfl, rfl⟩
  | cons e es ih =>
    have hkw := newQueue_kws arr svc g cls args e o qs
    unfold newQueues idealQueues
    cases hty : typeAt g e with
    | none =>
      have : newQueue arr svc g cls args none e o qs = (o, .error .keyError) := by
        unfold newQueue
        have : (g.adj.look e.1 e.2).bind (·.etype) = none := hty
        rw [this]
      rw [this]; exact ⟨rfl, rfl⟩
    | some et =>
      have hty' : (g.adj.look e.1 e.2).bind (·.etype) = some et := hty
      cases hix : Dict.get? g.index e with
      | none =>
        have : newQueue arr svc g cls args none e o qs = (o, .error .keyError) := by
          unfold newQueue
          rw [hty', hix]
        rw [this]; exact ⟨rfl, rfl⟩
      | some k =>
        simp only [hu et]
        cases hr : Dict.get? args et with
        | none =>
          have : newQueue arr svc g cls args none e o qs = (o, .error .keyError) := by
            unfold newQueue
            simp only [hty', hix, hr]
          rw [this]
          cases Dict.get? cls et <;> exact ⟨rfl, rfl⟩
        | some r =>
          have hgs := (giveServers_entered o none e.2 r).2 rfl
          cases hcl : Dict.get? cls et with
          | none =>
            have : newQueue arr svc g cls args none e o qs = (o, .error .keyError) := by
              unfold newQueue
              simp only [hty', hix, hr, hgs, hcl]
            rw [this]; exact ⟨rfl, rfl⟩
          | some cl =>
            simp only [Option.bind_some, Option.map_some]
            by_cases hed : (o.kws r).kw.edge.isSome
            · have : newQueue arr svc g cls args none e o qs = (o, .error .typeError) := by
                unfold newQueue
                simp only [hty', hix, hr, hgs, hcl, hed, if_true]
              rw [this, if_pos hed]; exact ⟨rfl, rfl⟩
            · cases hq : cl.make arr svc { (o.kws r).kw with edge := some ⟨e.1, e.2, k, et⟩ } with
              | error err =>
                have : newQueue arr svc g cls args none e o qs = (o, .error err) := by
                  unfold newQueue
                  simp only [hty', hix, hr, hgs, hcl, hed, hq]
                  rfl
                rw [this, if_neg hed]; exact ⟨rfl, rfl⟩
              | ok q =>
                have : newQueue arr svc g cls args none e o qs =
                    ({ o with colours := (newColours o.colours cl (o.kws r).colors).1 },
                      .ok (qs.set k (some (q, (newColours o.colours cl (o.kws r).colors).2)))) := by
                  unfold newQueue
                  simp only [hty', hix, hr, hgs, hcl, hed, hq]
                  rfl
                rw [this, if_neg hed]
                simp only
                obtain ⟨i1, i2⟩ := ih { o with colours := (newColours o.colours cl (o.kws r).colors).1 }
                  (qs.set k (some (q, (newColours o.colours cl (o.kws r).colors).2))) hu
                refine ⟨i1, ?_⟩
                rw [i2]
                congr 1
                simp [cfgs, List.map_set]

theorem use_pre {o : Objs T K} (ho : o.Valid) (c : NetCall A) (et : Int) :
    useFor o c et = (Dict.get? (usedClasses o c) et).bind fun cl =>
      (Dict.get? (usedArgs o c) et).map fun r => (cl, ((preObjs o c).kws r).kw) := by
  obtain ⟨-, -, -, -, p5⟩ := pre_spec ho c
  rw [usedClasses_get]
  unfold useFor
  cases hcl : classFor o c.classes et with
  | none => rfl
  | some cl =>
    simp only [Option.bind_some]
    rw [← p5 et cl hcl]
    cases Dict.get? (usedArgs o c) et <;> rfl

/-- What is seen of a network, apart from colours. -/
structure NetView (A T : Type*) where
  graph : QGraph A
  queues : List (Option (QCfg T))
  out : Nat → List Nat
  bas : Bool

/-- The network apart from colours. -/
def NewNet.view (m : NewNet A T) : NetView A T := ⟨m.graph, cfgs m.queues, m.out, m.bas⟩

/-- The call without capacities of vertices. -/
def NetCall.NoCap (c : NetCall A) : Prop := c.adjust = true ∨ c.cap = none

theorem NetCall.NoCap.prepare {c : NetCall A} (h : c.NoCap) {g : QGraph A} {cap : Option (Nat → Option Nat)}
    (hp : prepare c.g c.cap c.adjust = .ok (g, cap)) : cap = none := by
  unfold Verif.prepare at hp
  split at hp
  · split at hp
    · cases hp
    · simp only [Except.ok.injEq, Prod.mk.injEq] at hp
      exact hp.2.symm
  · rename_i ha
    simp only [Except.ok.injEq, Prod.mk.injEq] at hp
    rw [← hp.2]
    exact h.resolve_left ha

theorem newNet_ideal (arr svc : Nat → T → T) {o : Objs T K} (ho : o.Valid) {c : NetCall A} (hc : c.NoCap) :
    (newNet arr svc o c).2.map NewNet.view =
    match blockingOf c.blocking with
    | .error e => .error e
    | .ok bas =>
      match prepare c.g c.cap c.adjust with
      | .error e => .error e
      | .ok (g, _) =>
        match idealQueues arr svc g (useFor o c) g.adj.edges (List.replicate g.adj.edges.length none) with
        | .error e => .error e
        | .ok qs =>
          match g.allOut with
          | .error e => .error e
          | .ok out => .ok ⟨g, qs, out, bas⟩ := by
  rw [newNet_eq]
  cases blockingOf c.blocking with
  | error e => rfl
  | ok bas =>
    simp only
    cases hp : prepare c.g c.cap c.adjust with
    | error e => rfl
    | ok p =>
      obtain ⟨g, cap⟩ := p
      obtain rfl := hc.prepare hp
      simp only
      have h := (newQueues_ideal arr svc g (cls := usedClasses o c) (args := usedArgs o c) (use := useFor o c) g.adj.edges
        (preObjs o c) (List.replicate g.adj.edges.length none) (use_pre ho c)).2
      have hr : cfgs (T := T) (List.replicate g.adj.edges.length none) = List.replicate g.adj.edges.length none := by
        simp [cfgs]
      rw [hr] at h
      rw [← h]
      rcases newQueues arr svc g (usedClasses o c) (usedArgs o c) none g.adj.edges (preObjs o c)
        (List.replicate g.adj.edges.length none) with ⟨o', e | qs⟩
      · rfl
      · simp only [Except.map]
        cases g.allOut <;> rfl

/-- Making a network without capacities changes no dict of keyword arguments but for `colors`. -/
theorem newNet_kws (arr svc : Nat → T → T) {o : Objs T K} (ho : o.Valid) {c : NetCall A} (hc : c.NoCap) (i : Nat)
    (hi : i < o.next) : ((newNet arr svc o c).1.kws i).kw = (o.kws i).kw := by
  obtain ⟨-, -, p3, -, -⟩ := pre_spec ho c
  rw [newNet_eq]
  split
  · rfl
  · split
    · exact p3 i hi
    · rename_i g cap hp
      obtain rfl := hc.prepare hp
      have h := (newQueues_ideal arr svc g (cls := usedClasses o c) (args := usedArgs o c) (use := useFor o c) g.adj.edges
        (preObjs o c) (List.replicate g.adj.edges.length none) (use_pre ho c)).1
      split
      · rename_i o' e he
        rw [he] at h
        simp only at h
        simp only [h]
        exact p3 i hi
      · rename_i o' qs he
        rw [he] at h
        simp only at h
        split <;> (simp only [h]; exact p3 i hi)

theorem takeArgs_fresh (o : Objs T K) (cls : Dict Int QClass) (r : Option Nat) (i : Nat) (hi : o.next ≤ i)
    (hi' : i < (takeArgs o cls r).1.next) : ((takeArgs o cls r).1.kws i).kw = {} := by
  cases r with
  | none =>
    have h := added [0, 1, 2, 3, 4] o []
    simp only [takeArgs] at hi' ⊢
    rw [h.fresh i hi hi']
  | some r =>
    have h := added (Dict.keys cls) o (o.args r)
    simp only [takeArgs] at hi' ⊢
    rw [h.fresh i hi hi']

theorem newNet_newKws (arr svc : Nat → T → T) {o : Objs T K} (ho : o.Valid) {c : NetCall A} (hc : c.NoCap) (i : Nat)
    (hi : o.next ≤ i) (hi' : i < (newNet arr svc o c).1.next) : ((newNet arr svc o c).1.kws i).kw = {} := by
  obtain ⟨k1, ka, kk, kn⟩ := takeClasses_kept o c.classes
  obtain ⟨d1, d2⟩ := dfltColours_fold (usedArgs o c)
    (takeArgs (takeClasses o c.classes).1 (takeClasses o c.classes).2 c.args).1
  have hpre : i < (preObjs o c).next → ((preObjs o c).kws i).kw = {} := by
    intro h
    refine (d2 i).trans (takeArgs_fresh _ _ _ i (kn ▸ hi) ?_)
    rw [← d1.next]; exact h
  rw [newNet_eq] at hi' ⊢
  split at hi'
  · exact absurd hi' (not_lt.mpr hi)
  · split at hi'
    · exact hpre hi'
    · rename_i g cap hp
      obtain rfl := hc.prepare hp
      have h := (newQueues_ideal arr svc g (cls := usedClasses o c) (args := usedArgs o c) (use := useFor o c) g.adj.edges
        (preObjs o c) (List.replicate g.adj.edges.length none) (use_pre ho c)).1
      have hx := (newQueues_entered arr svc g (usedClasses o c) (usedArgs o c) none g.adj.edges (preObjs o c)
        (List.replicate g.adj.edges.length none)).next
      split at hi'
      · rename_i o' e he
        rw [he] at h hx
        simp only at h hx hi' ⊢
        rw [h]
        exact hpre (hx ▸ hi')
      · rename_i o' qs he
        rw [he] at h hx
        simp only at h hx hi' ⊢
        have hi2 : i < o'.next := by split at hi' <;> exact hi'
        split <;> (rw [h]; exact hpre (hx ▸ hi2))

theorem newNet_use (arr svc : Nat → T → T) {o : Objs T K} (ho : o.Valid) {c : NetCall A} (hc : c.NoCap) (c' : NetCall A)
    (et : Int) : useFor (newNet arr svc o c).1 c' et = useFor o c' et := by
  obtain ⟨hk, -⟩ := newNet_kept arr svc ho c
  have h1 : classFor (newNet arr svc o c).1 c'.classes et = classFor o c'.classes et := by
    unfold classFor
    cases c'.classes with
    | none => rfl
    | some r =>
      simp only
      cases hd : Dict.get? (o.classes r) et with
      | some v => rw [hk.classes r et v hd]
      | none =>
        rcases hk.newClasses r et hd with e | e
        · rw [e]
        · rw [e]
          cases Dict.get? dfltClasses et <;> rfl
  have h2 : kwFor (newNet arr svc o c).1 c'.args et = kwFor o c'.args et := by
    unfold kwFor
    cases c'.args with
    | none => rfl
    | some r =>
      simp only
      cases hd : Dict.get? (o.args r) et with
      | some i =>
        rw [hk.args r et i hd]
        simp only
        rw [newNet_kws arr svc ho hc i (ho r et i hd)]
      | none =>
        rcases hk.newArgs r et hd with e | ⟨i, e1, e2, e⟩
        · rw [e]
        · rw [e]
          simp only
          rw [newNet_newKws arr svc ho hc i e1 e2]
  unfold useFor
  rw [h1, h2]

/-- C127: a network made after others (with or without the same dicts) is, apart from colours, the one that would have
been made first; also the exception, if any, is the same. Vertices without capacities. -/
theorem C127_again_partial (arr svc : Nat → T → T) {o : Objs T K} (ho : o.Valid) {cs : List (NetCall A)}
    (hcs : ∀ c ∈ cs, c.adjust = true ∨ c.cap = none) {c : NetCall A} (hc : c.adjust = true ∨ c.cap = none) :
    (newNet arr svc (newNets arr svc o cs) c).2.map NewNet.view = (newNet arr svc o c).2.map NewNet.view := by
  have hu : useFor (newNets arr svc o cs) c = useFor o c := by
    induction cs generalizing o with
    | nil => rfl
    | cons c' cs ih =>
      have h2 := (newNet_kept arr svc ho c').2
      refine (ih h2 fun x hx => hcs x (List.mem_cons_of_mem _ hx)).trans ?_
      funext et
      exact newNet_use arr svc ho (hcs c' (by simp)) c et
  rw [newNet_ideal arr svc ho hc, newNet_ideal arr svc (C127_given_kept arr svc ho cs).2 hc, hu]

/-! ## Without `q_args` -/

theorem make_filled (arr svc : Nat → T → T) {kw : QKw T} (h : Filled {} kw) (cl : QClass) (e : Edge) :
    kw.edge = none ∧ ∃ q, cl.make arr svc { kw with edge := some e } = .ok q := by
  rcases h with rfl | ⟨-, n, hn, rfl⟩
  · exact ⟨rfl, (C122_accepts arr svc _ cl).2.2 (.inl rfl)⟩
  · exact ⟨rfl, (C122_accepts arr svc _ cl).2.2 (.inr (.inr ⟨n, by omega, rfl⟩))⟩

theorem newQueues_total (arr svc : Nat → T → T) {g : QGraph A} (hg : Numbered g) {cls : Dict Int QClass}
    {args : Dict Int Nat} {cap : Option (Nat → Option Nat)} (es : List (Nat × Nat)) (hes : ∀ e ∈ es, e ∈ g.adj.edges)
    (o : Objs T K) (qs : List (Option (NewQueue T)))
    (hkw : ∀ et r, Dict.get? args et = some r → Filled {} (o.kws r).kw) :
    ((∀ e ∈ es, ∃ et, typeAt g e = some et ∧ (Dict.get? cls et).isSome ∧ (Dict.get? args et).isSome) →
      ∃ o' res, newQueues arr svc g cls args cap es o qs = (o', .ok res)) ∧
    ((∃ e ∈ es, ∀ et, typeAt g e = some et → Dict.get? cls et = none ∨ Dict.get? args et = none) →
      ∃ o', newQueues arr svc g cls args cap es o qs = (o', .error .keyError)) := by
  induction es generalizing o qs with
  | nil => exact ⟨fun _ => ⟨_, _, rfl⟩, fun ⟨e, he, _⟩ => by simp at he⟩
  | cons e es ih =>
    obtain ⟨k, hk⟩ := Option.isSome_iff_exists.mp ((hg.edges e).mpr (hes e (by simp)))
    have hent := newQueue_entered arr svc g cls args cap e o qs
    have hgood : (∃ et, typeAt g e = some et ∧ (Dict.get? cls et).isSome ∧ (Dict.get? args et).isSome) →
        ∃ o1 qs1, newQueue arr svc g cls args cap e o qs = (o1, .ok qs1) := by
      rintro ⟨et, h1, h2, h3⟩
      obtain ⟨cl, hcl⟩ := Option.isSome_iff_exists.mp h2
      obtain ⟨r, hr⟩ := Option.isSome_iff_exists.mp h3
      have h1' : (g.adj.look e.1 e.2).bind (·.etype) = some et := h1
      have hgs := (giveServers_entered o cap e.2 r).1
      obtain ⟨m1, q, m2⟩ := make_filled arr svc ((hkw et r hr).trans (hgs.kws r)) cl ⟨e.1, e.2, k, et⟩
      unfold newQueue
      simp only [h1', hk, hr, hcl, m1, m2, Option.isSome_none, Bool.false_eq_true, if_false]
      exact ⟨_, _, rfl⟩
    have hbad : (∀ et, typeAt g e = some et → Dict.get? cls et = none ∨ Dict.get? args et = none) →
        ∃ o1, newQueue arr svc g cls args cap e o qs = (o1, .error .keyError) := by
      intro h
      unfold newQueue
      cases hty : (g.adj.look e.1 e.2).bind (·.etype) with
      | none => exact ⟨_, rfl⟩
      | some et =>
        simp only [hk]
        rcases h et hty with h | h
        · cases Dict.get? args et with
          | none => exact ⟨_, rfl⟩
          | some r => simp only [h]; exact ⟨_, rfl⟩
        · rw [h]; exact ⟨_, rfl⟩
    have hstep : ∀ o1 qs1, newQueue arr svc g cls args cap e o qs = (o1, .ok qs1) →
        newQueues arr svc g cls args cap (e :: es) o qs = newQueues arr svc g cls args cap es o1 qs1 ∧
        ∀ et r, Dict.get? args et = some r → Filled {} (o1.kws r).kw := by
      intro o1 qs1 h1
      refine ⟨by rw [newQueues, h1], fun et r hr => (hkw et r hr).trans ?_⟩
      rw [h1] at hent
      exact hent.kws r
    constructor
    · intro h
      obtain ⟨o1, qs1, h1⟩ := hgood (h e (by simp))
      obtain ⟨s1, s2⟩ := hstep o1 qs1 h1
      rw [s1]
      exact (ih (fun e he => hes e (by simp [he])) o1 qs1 s2).1 fun e' he' => h e' (by simp [he'])
    · rintro ⟨e', he', h⟩
      by_cases hb : ∀ et, typeAt g e = some et → Dict.get? cls et = none ∨ Dict.get? args et = none
      · obtain ⟨o1, h1⟩ := hbad hb
        exact ⟨o1, by rw [newQueues, h1]⟩
      · push Not at hb
        obtain ⟨et, h1, h2, h3⟩ := hb
        obtain ⟨o1, qs1, h4⟩ := hgood ⟨et, h1, Option.isSome_iff_ne_none.mpr h2, Option.isSome_iff_ne_none.mpr h3⟩
        obtain ⟨s1, s2⟩ := hstep o1 qs1 h4
        rw [s1]
        refine (ih (fun e he => hes e (by simp [he])) o1 qs1 s2).2 ⟨e', ?_, h⟩
        rcases List.mem_cons.mp he' with rfl | he'
        · rcases h et h1 with h | h
          · exact absurd h h2
          · exact absurd h h3
        · exact he'

theorem used_types (o : Objs T K) (c : NetCall A) (hc : c.args = none) (et : Int) :
    (Dict.get? (usedArgs o c) et).isSome ↔ 0 ≤ et ∧ et ≤ 4 := by
  have h := added [0, 1, 2, 3, 4] (takeClasses o c.classes).1 []
  have e : usedArgs o c = (([0, 1, 2, 3, 4] : List Int).foldl addEmpty ((takeClasses o c.classes).1, [])).2 := by
    unfold usedArgs
    rw [hc]; rfl
  rw [e]
  have hm : (et ∈ [(0 : Int), 1, 2, 3, 4]) ↔ 0 ≤ et ∧ et ≤ 4 := by
    simp only [List.mem_cons, List.not_mem_nil, or_false]; omega
  constructor
  · intro hs
    by_contra hn
    rw [h.out et rfl (fun hx => hn (hm.mp hx))] at hs
    cases hs
  · intro hs
    obtain ⟨i, -, -, h3⟩ := h.new et rfl (hm.mpr hs)
    rw [h3]; rfl

theorem dflt_some (o : Objs T K) (r : Option Nat) {et : Int} (h : 0 ≤ et ∧ et ≤ 4) : (classFor o r et).isSome := by
  have hd : (Dict.get? dfltClasses et).isSome := by
    rw [Dict.get?_isSome]
    simp only [dfltClasses, Dict.keys, List.map_cons, List.map_nil, List.mem_cons, List.not_mem_nil, or_false]
    omega
  unfold classFor
  split
  · exact hd
  · split
    · rfl
    · exact hd

/-- C127, finding F50: without `q_args` a network can be made exactly if all edges have types 0, ..., 4, though
`q_classes` may have classes for other types; otherwise KeyError is raised. -/
theorem C127_without_args (arr svc : Nat → T → T) {o : Objs T K} (ho : o.Valid) {c : NetCall A} (hg : Built c.g)
    (hargs : c.args = none) {s : String} (hb : c.blocking = .str s) {g' : QGraph A} {cap' : Option (Nat → Option Nat)}
    (hp : prepare c.g c.cap c.adjust = .ok (g', cap')) :
    ((∀ u v x, g'.adj.look u v = some x → ∃ et, x.etype = some et ∧ 0 ≤ et ∧ et ≤ 4) →
      (∀ v ∈ Dict.keys g'.adj, v < g'.adj.length) → ∃ o' m, newNet arr svc o c = (o', .ok m)) ∧
    ((∃ u v x, g'.adj.look u v = some x ∧ ∀ et, x.etype = some et → ¬(0 ≤ et ∧ et ≤ 4)) →
      ∃ o', newNet arr svc o c = (o', .error .keyError)) := by
  have hn := Numbered.of_built (prepare_built hg hp).1
  obtain ⟨-, -, -, -, p5⟩ := pre_spec ho c
  have hkw : ∀ et r, Dict.get? (usedArgs o c) et = some r → Filled {} ((preObjs o c).kws r).kw := by
    intro et r hr
    have h04 := (used_types o c hargs et).mp (by rw [hr]; rfl)
    obtain ⟨cl, hcl⟩ := Option.isSome_iff_exists.mp (dflt_some o c.classes h04)
    have := p5 et cl hcl
    rw [hr, hargs] at this
    simp only [kwFor, h04, and_self, if_true, Option.map_some, Option.some.injEq] at this
    exact .inl this
  have key := newQueues_total arr svc hn (cls := usedClasses o c) (args := usedArgs o c) (cap := cap') g'.adj.edges
    (fun _ h => h) (preObjs o c) (List.replicate g'.adj.edges.length none) hkw
  rw [newNet_eq]
  simp only [hb, blockingOf, hp]
  refine ⟨fun hty hv => ?_, ?_⟩
  · obtain ⟨o', res, h⟩ := key.1 (by
      rintro ⟨u, v⟩ he
      obtain ⟨x, hx⟩ := Option.isSome_iff_exists.mp ((Adj.mem_edges hn.ok).mp he)
      obtain ⟨et, h1, h2⟩ := hty u v x hx
      exact ⟨et, by simp [typeAt, hx, h1], by rw [usedClasses_get]; exact dflt_some o _ h2,
        (used_types o c hargs et).mpr h2⟩)
    rw [h]
    simp only [QGraph.allOut, if_pos hv]
    exact ⟨_, _, rfl⟩
  · rintro ⟨u, v, x, hx, h⟩
    obtain ⟨o', h'⟩ := key.2 ⟨(u, v), (Adj.mem_edges hn.ok).mpr (by rw [hx]; rfl), fun et het => .inr (by
      have := h et (by simpa [typeAt, hx] using het)
      rw [← used_types o c hargs et] at this
      simpa using this)⟩
    rw [h']
    exact ⟨o', rfl⟩

/-! ## The network made can be simulated -/

section

variable {R : Type*}

/-- The network with the queues made. -/
def NewNet.cfg (m : NewNet A T) (none : QCfg T) (maxAgents : Cap) (unif : Nat → R)
    (jit : Nat → T → T) (garbage : Nat → Nat → T × Nat) : NetCfg T R where
  nE := m.graph.adj.edges.length
  qc k := match m.queues[k]? with
    | some (some q) => q.1
    | _ => none
  outEdges := m.out
  maxAgents := maxAgents
  unif := unif
  jit := jit
  garbage := garbage

theorem network_ok_both {arr svc : Nat → T → T} {o o' : Objs T K} (ho : o.Valid) {c : NetCall A} (hg : Built c.g)
    {m : NewNet A T} (h : newNet arr svc o c = (o', .ok m)) (hadj : c.adjust = true)
    (hq : ∀ (k : Nat) (q : QCfg T) (d : DictRef), m.queues[k]? = some (some (q, d)) →
      (q.edge.etype = 0 → q.kind = .null) ∧ (∀ i t, t ≤ q.arrivalF i t) ∧ ∀ i t, t ≤ q.serviceF i t)
    {none : QCfg T} {maxAgents : Cap} {unif : Nat → R} {jit : Nat → T → T}
    (hjit : ∀ i t, t ≤ jit i t) {garbage : Nat → Nat → T × Nat} :
    (m.cfg none maxAgents unif jit garbage).OkA ∧
      ((∀ (k : Nat) (q : QCfg T) (d : DictRef), m.queues[k]? = some (some (q, d)) → q.kind ≠ .resource) →
        (m.cfg none maxAgents unif jit garbage).Ok) := by
  obtain ⟨cap, -, hp, -, hout⟩ := newNet_parts h
  rw [hadj] at hp
  obtain ⟨hl, hqs⟩ := C127_queues ho hg h
  have hn := Numbered.of_built (prepare_built hg hp).1
  -- the network in the simpler model
  have hall : ∀ v ∈ Dict.keys m.graph.adj, v < m.graph.adj.length := by
    unfold QGraph.allOut at hout
    split at hout
    · assumption
    · cases hout
  have hcl : ∀ u v x, m.graph.adj.look u v = some x → ∃ et, x.etype = some et ∧
      (et ∈ Dict.keys (usedClasses o c) ∨ et ∈ Dict.keys ([] : Dict Int QClass)) := by
    intro u v x hx
    obtain ⟨et, k, cl, kw, kw', q, d, a1, a2, a3, a4, -⟩ := hqs u v x hx
    refine ⟨et, a1, .inl ?_⟩
    rw [← Dict.get?_isSome, usedClasses_get]
    unfold classFor
    cases hr : c.classes with
    | none => rw [hr] at a4; simp only at a4 ⊢; rw [a4]; rfl
    | some r =>
      rw [hr] at a4
      simp only at a4 ⊢
      rcases a4 with a4 | ⟨a4, a5⟩
      · rw [a4]; rfl
      · rw [a4]; simp only; rw [a5]; rfl
  obtain ⟨m', hm'⟩ := (C66_when_ok (B := Unit) hg (given := usedClasses o c) (dflt := []) (args := []) hp).mpr ⟨hcl, hall⟩
  obtain ⟨cap2, hp', -, hout'⟩ := makeNetwork_parts hm'
  rw [hp] at hp'
  simp only [Except.ok.injEq, Prod.mk.injEq] at hp'
  obtain ⟨hgr, -⟩ := hp'
  rw [← hgr, hout] at hout'
  simp only [Except.ok.injEq] at hout'
  obtain ⟨-, hq', hall'⟩ := C66_queues hg hm'
  rw [← hgr] at hq' hall'
  -- the parameters of a queue
  let dummy : Edge → QCfg T := fun e => ⟨if e.etype = 0 then .null else .server, e, .fin 1, fun _ t => t, fun _ t => t,
    .plain, .inf, ⊤, .inf, .inf⟩
  let mk : QSpec QClass Unit → QCfg T := fun s => match m.queues[s.edge.idx]? with
    | some (some q) => if q.1.edge = s.edge then q.1 else dummy s.edge
    | _ => dummy s.edge
  have hmk : ∀ s, mk s = dummy s.edge ∨ ∃ (k : Nat) (q : QCfg T) (d : DictRef),
      m.queues[k]? = some (some (q, d)) ∧ q.edge = s.edge ∧ mk s = q := by
    intro s
    show (match m.queues[s.edge.idx]? with
      | some (some q) => if q.1.edge = s.edge then q.1 else dummy s.edge
      | _ => dummy s.edge) = _ ∨ ∃ (k : Nat) (q : QCfg T) (d : DictRef), m.queues[k]? = some (some (q, d)) ∧
      q.edge = s.edge ∧ (match m.queues[s.edge.idx]? with
      | some (some q) => if q.1.edge = s.edge then q.1 else dummy s.edge
      | _ => dummy s.edge) = q
    split
    · rename_i q hk
      split
      · rename_i he; exact .inr ⟨_, q.1, q.2, hk, he, rfl⟩
      · exact .inl rfl
    · exact .inl rfl
  have h1 : ∀ s, (mk s).edge = s.edge := by
    intro s
    rcases hmk s with e | ⟨k, q, d, h1, h2, e⟩
    · rw [e]
    · rw [e, h2]
  have h2 : ∀ s, s.edge.etype = 0 → (mk s).kind = .null := by
    intro s h0
    rcases hmk s with e | ⟨k, q, d, h1, h2, e⟩
    · rw [e]
      show (if _ then QKind.null else QKind.server) = _
      rw [if_pos h0]
    · rw [e]; exact (hq k q d h1).1 (by rw [h2, h0])
  have h3 : ∀ s, Forward (mk s) := by
    intro s
    rcases hmk s with e | ⟨k, q, d, h1, h2, e⟩
    · rw [e]; exact ⟨fun _ _ => le_rfl, fun _ _ => le_rfl⟩
    · rw [e]; exact ⟨(hq k q d h1).2.1, (hq k q d h1).2.2⟩
  have hOkA : (m'.cfg mk none maxAgents unif jit garbage).OkA := C73_network_okA hg hm' h1 h2 h3 hjit
  have hOk : (∀ (k : Nat) (q : QCfg T) (d : DictRef), m.queues[k]? = some (some (q, d)) → q.kind ≠ .resource) →
      (m'.cfg mk none maxAgents unif jit garbage).Ok := by
    intro hres
    refine C73_network_ok hg hm' h1 (fun s => ?_) h2 h3 hjit
    rcases hmk s with e | ⟨k, q, d, h1, h2, e⟩
    · rw [e]
      have : (dummy s.edge).kind = if s.edge.etype = 0 then .null else .server := rfl
      rw [this]
      split <;> simp
    · rw [e]
      have := hres k q d h1
      cases hk : q.kind <;> simp_all
  have hqc : (m.cfg none maxAgents unif jit garbage : NetCfg T R) = m'.cfg mk none maxAgents unif jit garbage := by
    unfold NewNet.cfg Made.cfg
    rw [← hgr, hout']
    congr 1
    funext k
    by_cases hk : k < m.graph.adj.edges.length
    · obtain ⟨s, s1, s2, s3⟩ := hall' k hk
      rw [s1]
      simp only
      have hm : (s.edge.src, s.edge.tgt) ∈ m.graph.adj.edges := by rw [← hn.edges, s3]; rfl
      obtain ⟨x, hx⟩ := Option.isSome_iff_exists.mp ((Adj.mem_edges hn.ok).mp hm)
      obtain ⟨et, k', s', b1, b2, b3, b4, -⟩ := hq' _ _ x hx
      rw [s3] at b2
      obtain rfl := Option.some.inj b2
      rw [s1] at b3
      obtain rfl := Option.some.inj (Option.some.inj b3)
      obtain ⟨et', k', cl, kw, kw', q, d, a1, a2, a3, -, -, -, a8⟩ := hqs _ _ x hx
      rw [s3] at a2
      obtain rfl := Option.some.inj a2
      rw [b1] at a1
      obtain rfl := Option.some.inj a1
      have he : q.edge = s.edge := by
        rw [(C122_attributes a8).2.2.1]
        simp only
        rw [b4]
      show _ = (match m.queues[s.edge.idx]? with
        | some (some q) => if q.1.edge = s.edge then q.1 else dummy s.edge
        | _ => dummy s.edge)
      rw [s2, a3]
      simp only [he, if_true]
    · have h1 : m.queues[k]? = .none := List.getElem?_eq_none (by rw [hl]; omega)
      have h2 : m'.queues[k]? = .none := by
        refine List.getElem?_eq_none ?_
        rw [(C66_queues hg hm').1, ← hgr]; omega
      rw [h1, h2]
  rw [hqc]
  exact ⟨hOkA, hOk⟩

/-- C127: a network made with `adjust_graph=True` whose queues are of any class, but NullQueues for type 0, with arrival
and service functions that do not go back in time, has everything the theorems on networks with queues of any class ask
for. -/
theorem C127_network_okA {arr svc : Nat → T → T} {o o' : Objs T K} (ho : o.Valid) {c : NetCall A} (hg : Built c.g)
    {m : NewNet A T} (h : newNet arr svc o c = (o', .ok m)) (hadj : c.adjust = true)
    (hq : ∀ (k : Nat) (q : QCfg T) (d : DictRef), m.queues[k]? = some (some (q, d)) →
      (q.edge.etype = 0 → q.kind = .null) ∧ (∀ i t, t ≤ q.arrivalF i t) ∧ ∀ i t, t ≤ q.serviceF i t)
    {none : QCfg T} {maxAgents : Cap} {unif : Nat → R} {jit : Nat → T → T}
    (hjit : ∀ i t, t ≤ jit i t) {garbage : Nat → Nat → T × Nat} :
    (m.cfg none maxAgents unif jit garbage).OkA :=
  (network_ok_both ho hg h hadj hq hjit).1

/-- C127: a network made with `adjust_graph=True` whose queues are QueueServers, LossQueues (also InfoQueues) and, for
type 0, NullQueues, with arrival and service functions that do not go back in time, has everything the network theorems
ask for. -/
theorem C127_network_ok {arr svc : Nat → T → T} {o o' : Objs T K} (ho : o.Valid) {c : NetCall A} (hg : Built c.g)
    {m : NewNet A T} (h : newNet arr svc o c = (o', .ok m)) (hadj : c.adjust = true)
    (hq : ∀ (k : Nat) (q : QCfg T) (d : DictRef), m.queues[k]? = some (some (q, d)) →
      q.kind ≠ .resource ∧ (q.edge.etype = 0 → q.kind = .null) ∧ (∀ i t, t ≤ q.arrivalF i t) ∧ ∀ i t, t ≤ q.serviceF i t)
    {none : QCfg T} {maxAgents : Cap} {unif : Nat → R} {jit : Nat → T → T}
    (hjit : ∀ i t, t ≤ jit i t) {garbage : Nat → Nat → T × Nat} :
    (m.cfg none maxAgents unif jit garbage).Ok :=
  (network_ok_both ho hg h hadj (fun k q d hk => (hq k q d hk).2) hjit).2 fun k q d hk => (hq k q d hk).1

/-- C127: `QueueNetwork(g)` for any graph with types 0, ..., 4 (edges without a type get one): it is made, and has
everything the network theorems ask for, if the default functions do not go back in time. -/
theorem C127_default_ok {arr svc : Nat → T → T} (harr : ∀ i t, t ≤ arr i t) (hsvc : ∀ i t, t ≤ svc i t) {o : Objs T K}
    (ho : o.Valid) {g g' : QGraph A} (hg : Built g) {cap cap' : Option (Nat → Option Nat)}
    (hp : prepare g cap true = .ok (g', cap'))
    (hty : ∀ u v x, g'.adj.look u v = some x → ∃ et, x.etype = some et ∧ 0 ≤ et ∧ et ≤ 4)
    (hv : ∀ v ∈ Dict.keys g'.adj, v < g'.adj.length)
    {none : QCfg T} {maxAgents : Cap} {unif : Nat → R} {jit : Nat → T → T}
    (hjit : ∀ i t, t ≤ jit i t) {garbage : Nat → Nat → T × Nat} :
    ∃ o' m, newNet arr svc o { g := g, cap := cap } = (o', .ok m) ∧ m.bas = true ∧
      (m.cfg none maxAgents unif jit garbage).Ok := by
  obtain ⟨o', m, h⟩ := (C127_without_args arr svc ho (c := { g := g, cap := cap }) hg rfl rfl hp).1 hty hv
  have hb : m.bas = true := by
    obtain ⟨_, hb, -⟩ := newNet_parts h
    simp only [blockingOf, Except.ok.injEq] at hb
    rw [← hb, decide_eq_true_iff, Ne, toLower_rs]
    decide
  refine ⟨o', m, h, hb, C127_network_ok ho (c := { g := g, cap := cap }) hg h rfl ?_ hjit⟩
  obtain ⟨cap2, -, hp', -, -⟩ := newNet_parts h
  have hn := Numbered.of_built (prepare_built hg hp').1
  obtain ⟨hl, hqs⟩ := C127_queues ho hg h
  intro k q d hk
  have hklt : k < m.graph.nE := by
    rw [hn.count, ← hl]; exact (List.getElem?_eq_some_iff.mp hk).1
  obtain ⟨⟨u, v⟩, he⟩ := hn.onto k hklt
  obtain ⟨x, hx⟩ := Option.isSome_iff_exists.mp ((Adj.mem_edges hn.ok).mp ((hn.edges (u, v)).mp (by rw [he]; rfl)))
  obtain ⟨et, k', cl, kw, kw', q', d', a1, a2, a3, a4, a5, a6, a8⟩ := hqs u v x hx
  rw [he] at a2
  obtain rfl := Option.some.inj a2
  rw [hk] at a3
  simp only [Option.some.injEq, Prod.mk.injEq] at a3
  obtain ⟨rfl, rfl⟩ := a3
  simp only at a4 a5 a6
  obtain ⟨b0, b4, rfl⟩ := a5
  obtain rfl : kw' = {} := by
    rcases a6 with a6 | ⟨a6, -⟩
    · exact a6
    · cases a6
  obtain ⟨c1, -, c3, c4, c5, -⟩ := C122_attributes a8
  simp only at c3 c4 c5
  refine ⟨?_, fun h0 => ?_, fun i t => by rw [c4]; exact harr i t, fun i t => by rw [c5]; exact hsvc i t⟩
  · rw [c1]
    have : cl ≠ .resource := by
      rintro rfl
      have hm : et = 0 ∨ et = 1 ∨ et = 2 ∨ et = 3 ∨ et = 4 := by omega
      rcases hm with rfl | rfl | rfl | rfl | rfl <;> simp [dfltClasses, Dict.get?] at a4
    cases cl <;> simp_all
  · rw [c3] at h0
    simp only at h0
    subst h0
    simp only [dfltClasses, Dict.get?, if_true, Option.some.injEq] at a4
    subst a4
    exact c1

end

end

/-! ## C128: blocking -/

section

variable {T K A : Type*} [LinearOrder T] [OrderTop T] [Zero T] [EmptyCollection A]

/-- C128: which blocking policy a string means: RS for `'rs'`, `'RS'`, `'Rs'` and `'rS'`, BAS for every other string; a
value that is no string raises TypeError. -/
theorem C128_blocking (v : BlockArg) :
    (v = .other → blockingOf v = .error .typeError) ∧
    ∀ s, v = .str s → ∃ bas, blockingOf v = .ok bas ∧
      (blockingName bas = "RS" ↔ s = "rs" ∨ s = "RS" ∨ s = "Rs" ∨ s = "rS") ∧
      (blockingName bas = "BAS" ↔ ¬(s = "rs" ∨ s = "RS" ∨ s = "Rs" ∨ s = "rS")) := by
  refine ⟨?_, ?_⟩
  · rintro rfl; rfl
  · rintro s rfl
    refine ⟨_, rfl, ?_⟩
    rw [← toLower_rs]
    unfold blockingName
    by_cases h : s.toLower = "rs" <;> simp [h]

/-- C128: assigning what `blocking` shows changes nothing. -/
theorem C128_round_trip (bas : Bool) : blockingOf (.str (blockingName bas)) = .ok bas := by
  have h : ∀ s, blockingOf (.str s) = .ok (decide (s.toLower ≠ "rs")) := fun _ => rfl
  rw [h, Except.ok.injEq]
  cases bas with
  | true =>
    rw [decide_eq_true_iff, Ne, toLower_rs]
    decide
  | false =>
    rw [decide_eq_false_iff_not, not_not, toLower_rs]
    decide

/-- C128: the constructor: a new network has the policy of the string given; a value that is no string raises TypeError
before anything is done. -/
theorem C128_constructor (arr svc : Nat → T → T) (o : Objs T K) (c : NetCall A) :
    (c.blocking = .other → newNet arr svc o c = (o, .error .typeError)) ∧
    ∀ s o' m, c.blocking = .str s → newNet arr svc o c = (o', .ok m) →
      (m.bas = false ↔ s = "rs" ∨ s = "RS" ∨ s = "Rs" ∨ s = "rS") := by
  refine ⟨fun h => ?_, fun s o' m h hm => ?_⟩
  · rw [newNet_eq, h]; rfl
  · obtain ⟨_, hb, -⟩ := newNet_parts hm
    rw [h] at hb
    have : blockingOf (.str s) = .ok (decide (s.toLower ≠ "rs")) := rfl
    rw [this, Except.ok.injEq] at hb
    rw [← hb, decide_eq_false_iff_not, not_not, toLower_rs]

end

/-! ## Examples and counterexamples -/

section

/-- Two dicts `q_classes`: 0 has a class for type 7, 1 has none at all; two dicts `q_args`: 0 is empty, 1 has the dict of
arguments 0 for the types 1 and 2 and the dict 1 (three servers) for type 3, 2 has the dict 0 for type 2. -/
def someObjs : Objs ℕ∞ Nat where
  classes r := if r = 0 then [(7, .server)] else []
  args r := match r with
    | 0 => []
    | 1 => [(1, 0), (2, 0), (3, 1)]
    | _ => [(2, 0)]
  kws i := if i = 1 then ⟨{ numServers := some (.int 3) }, none⟩ else ⟨{}, none⟩
  colours _ _ := none
  next := 2

theorem someObjs_valid : someObjs.Valid := by
  intro r k i h
  match r with
  | 0 => simp [someObjs, Dict.get?] at h
  | 1 =>
    have : Dict.get? [(1, 0), (2, 0), (3, 1)] k = some i := h
    simp only [Dict.get?] at this
    show i < 2
    split_ifs at this <;> simp_all <;> omega
  | r + 2 =>
    have : Dict.get? [(2, 0)] k = some i := h
    simp only [Dict.get?] at this
    show i < 2
    split_ifs at this
    · simp only [Option.some.injEq] at this; omega

/-- A cycle 0 → 1 → 2 → 0 with types `a`, `b`, `c`. -/
def cycle3 (a b c : Int) : QGraph Unit :=
  QGraph.ofAdj [(0, [(1, ⟨some a, ()⟩)]), (1, [(2, ⟨some b, ()⟩)]), (2, [(0, ⟨some c, ()⟩)])]

theorem cycle3_built (a b c : Int) : Built (cycle3 a b c) := by
  refine .new ⟨?_, ?_⟩
  · simp [Dict.Ok, Dict.keys]
  · simp [Dict.Ok, Dict.keys]

/-- What is looked at in the examples: the numbers of servers and the dicts of colours, or the exception. -/
def servers (r : Objs ℕ∞ Nat × Except Err (NewNet Unit ℕ∞)) : Except Err (List (Option (Cap × DictRef))) :=
  match r.2 with
  | .error e => .error e
  | .ok m => .ok (m.queues.map fun q => q.map fun q => (q.1.servers, q.2))

def fwd : Nat → ℕ∞ → ℕ∞ := fun _ t => t + 1

/-- Finding F50: a class for type 7 is given, but no `q_args`: KeyError. With `q_args={}` the network is made. -/
theorem C127_type_without_args :
    servers (newNet fwd fwd someObjs { g := cycle3 1 7 2, classes := some 0 }) = .error .keyError ∧
    servers (newNet fwd fwd someObjs { g := cycle3 1 7 2, classes := some 0, args := some 0 }) =
      .ok [some (.fin 1, .other 1), some (.fin 1, .other 1), some (.fin 1, .other 2)] := by
  constructor <;> decide +kernel

/-- Finding F51: the capacities of the vertices of one graph are entered in `q_args`, and used for the next graph as
well: the second network, alone, has queues with 9 servers; after the first it has queues with 4. -/
theorem C127_capacity_remembered :
    servers (newNet fwd fwd someObjs { g := cycle3 1 1 1, cap := some fun _ => some 9, args := some 0, adjust := false }) =
      .ok [some (.fin 9, .other 1), some (.fin 9, .other 1), some (.fin 9, .other 1)] ∧
    servers (newNet fwd fwd (newNets fwd fwd someObjs
        [{ g := cycle3 1 1 1, cap := some fun _ => some 4, args := some 0, adjust := false }])
      { g := cycle3 1 1 1, cap := some fun _ => some 9, args := some 0, adjust := false }) =
      .ok [some (.fin 4, .other 1), some (.fin 4, .other 1), some (.fin 4, .other 1)] := by
  constructor <;> decide +kernel

/-- Finding F51: a dict of arguments used for two types gets the colours of the type that comes first; a queue of type 2
can get the colours of type 1, depending on which networks were made before. -/
theorem C127_colours_remembered :
    servers (newNet fwd fwd someObjs { g := cycle3 2 2 2, args := some 2 }) =
      .ok [some (.fin 1, .other 2), some (.fin 1, .other 2), some (.fin 1, .other 2)] ∧
    servers (newNet fwd fwd (newNets fwd fwd someObjs [{ g := cycle3 1 1 1, args := some 1 }])
      { g := cycle3 2 2 2, args := some 2 }) =
      .ok [some (.fin 1, .other 1), some (.fin 1, .other 1), some (.fin 1, .other 1)] := by
  constructor <;> decide +kernel

/-- The theorems apply: three networks made from the same dicts, the second with an exception. -/
example : someObjs.Valid ∧ Built (cycle3 1 2 3) ∧
    servers (newNet fwd fwd (newNets fwd fwd someObjs [{ g := cycle3 1 2 3, classes := some 1, args := some 1 },
        { g := cycle3 1 2 5, classes := some 0, args := some 1 }])
      { g := cycle3 1 2 3, classes := some 1, args := some 1, blocking := .str "rs" }) =
      .ok [some (.fin 1, .other 1), some (.fin 1, .other 1), some (.fin 3, .other 3)] ∧
    servers (newNet fwd fwd (newNets fwd fwd someObjs [{ g := cycle3 1 2 3, classes := some 1, args := some 1 }])
      { g := cycle3 1 2 5, classes := some 0, args := some 1 }) = .error .keyError :=
  ⟨someObjs_valid, cycle3_built 1 2 3, by decide +kernel, by decide +kernel⟩

/-- `C127_default_ok` applies to the cycle. -/
example : ∃ o' m, newNet fwd fwd someObjs { g := cycle3 1 2 0 } = (o', .ok m) ∧ m.bas = true ∧
    (m.cfg (R := Nat) ⟨.null, ⟨0, 0, 0, 0⟩, .fin 1, fwd, fwd, .plain, .inf, ⊤, .inf, .inf⟩ .inf (fun _ => 0) (fun _ t => t)
      (fun _ _ => (0, 0))).Ok := by
  refine C127_default_ok (fun _ t => le_self_add) (fun _ t => le_self_add) someObjs_valid (cycle3_built 1 2 0)
    (g' := cycle3 1 2 0) (cap' := none) rfl ?_ ?_ fun _ _ => le_rfl
  · intro u v x hx
    have hm : (u, v) ∈ (cycle3 1 2 0).adj.edges :=
      (Adj.mem_edges (Numbered.of_built (cycle3_built 1 2 0)).ok).mpr (by rw [hx]; rfl)
    have he : (cycle3 1 2 0).adj.edges = [(0, 1), (1, 2), (2, 0)] := by decide +kernel
    rw [he] at hm
    simp only [List.mem_cons, Prod.mk.injEq, List.not_mem_nil, or_false] at hm
    rcases hm with ⟨rfl, rfl⟩ | ⟨rfl, rfl⟩ | ⟨rfl, rfl⟩
    · obtain rfl : ⟨some 1, ()⟩ = x := Option.some.inj hx
      exact ⟨1, rfl, by decide⟩
    · obtain rfl : ⟨some 2, ()⟩ = x := Option.some.inj hx
      exact ⟨2, rfl, by decide⟩
    · obtain rfl : ⟨some 0, ()⟩ = x := Option.some.inj hx
      exact ⟨0, rfl, by decide⟩
  · decide +kernel

end

end Verif
