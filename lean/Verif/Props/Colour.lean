import Verif.Colour
import Verif.Resource
import Verif.NetRun
import Verif.Props.Queue1
import Verif.Props.Resource
import Mathlib.Tactic.Linarith
import Mathlib.Algebra.Order.Ring.Rat

/-! # Property C67: colours -/

set_option linter.unusedSectionVars false
set_option linter.unusedVariables false

namespace Verif.ColourSpec

open QueueSpec

variable {K : Type*} [Field K] [LinearOrder K] [IsStrictOrderedRing K]
variable {T : Type*} [LinearOrder T] [OrderTop T] [Zero T]

/-- Every component is between 0 and 1. -/
def InRange (l : List K) : Prop := ∀ x ∈ l, 0 ≤ x ∧ x ≤ 1

/-- No component of `l` is larger than that of `l'`. -/
def Darker (l l' : List K) : Prop := List.Forall₂ (· ≤ ·) l l'

/-- Base colours with (at least) four components between 0 and 1. -/
structure Proper (col : Colours K) : Prop where
  edgeLoop : InRange col.edgeLoop ∧ 4 ≤ col.edgeLoop.length
  edge : InRange col.edge ∧ 4 ≤ col.edge.length
  vertexFill : InRange col.vertexFill ∧ 4 ≤ col.vertexFill.length
  vertex : InRange col.vertex
  vertexPen : InRange col.vertexPen

theorem inRange_set {l : List K} {x : K} (i : Nat) (h : InRange l) (hx : 0 ≤ x ∧ x ≤ 1) : InRange (l.set i x) := by
  intro y hy
  rcases List.mem_or_eq_of_mem_set hy with h' | h'
  · exact h y h'
  · rw [h']; exact hx

theorem shaded_range {base : List K} {tmp alpha : K} (hb : InRange base ∧ 4 ≤ base.length) (ht : 0 ≤ tmp ∧ tmp ≤ 1)
    (ha : 0 ≤ alpha ∧ alpha ≤ 1) : ∃ l, shaded base tmp alpha = .ok l ∧ InRange l := by
  refine ⟨_, by unfold shaded; rw [if_neg (by omega)], inRange_set _ ?_ ha⟩
  intro x hx
  obtain ⟨y, hy, rfl⟩ := List.mem_map.mp hx
  obtain ⟨h0, h1⟩ := hb.1 y hy
  exact ⟨mul_nonneg h0 ht.1, mul_le_one₀ h1 ht.1 ht.2⟩

theorem shaded9_range {base : List K} {tmp alpha : K} (hb : InRange base ∧ 4 ≤ base.length)
    (ht : 0 ≤ tmp ∧ tmp ≤ 9 / 10) (ha : 0 ≤ alpha ∧ alpha ≤ 1) :
    ∃ l, shaded9 base tmp alpha = .ok l ∧ InRange l := by
  refine ⟨_, by unfold shaded9; rw [if_neg (by omega)], inRange_set _ ?_ ha⟩
  intro x hx
  obtain ⟨y, hy, rfl⟩ := List.mem_map.mp hx
  obtain ⟨h0, h1⟩ := hb.1 y hy
  have h9 : (0 : K) < 9 / 10 := by norm_num
  refine ⟨div_nonneg (mul_nonneg h0 ht.1) h9.le, (div_le_one h9).mpr ?_⟩
  calc y * tmp ≤ 1 * tmp := mul_le_mul_of_nonneg_right h1 ht.1
    _ ≤ 9 / 10 := by rw [one_mul]; exact ht.2

theorem darker_set {l l' : List K} {i : Nat} {x : K} (h : Darker l l') : Darker (l.set i x) (l'.set i x) := by
  unfold Darker at *
  induction h generalizing i with
  | nil => simp
  | cons hab h ih =>
    cases i with
    | zero => simp only [List.set_cons_zero]; exact .cons le_rfl h
    | succ i => simp only [List.set_cons_succ]; exact .cons hab ih

theorem darker_map {l : List K} {f g : K → K} (h : ∀ x ∈ l, f x ≤ g x) : Darker (l.map f) (l.map g) := by
  unfold Darker
  induction l with
  | nil => simp
  | cons a l ih => exact .cons (h a (by simp)) (ih fun x hx => h x (by simp [hx]))

theorem darker_refl (l : List K) : Darker l l := List.forall₂_same.mpr fun _ _ => le_rfl

theorem serverShade_spec {sens : K} (hs : 0 ≤ sens) {n : Cap} (hn : ∀ m, n = .fin m → 0 < m)
    (hi : n = .inf → sens ≠ 0) : ∃ div : K, 0 ≤ div ∧ ∀ {k : Int}, 0 ≤ k →
      serverShade sens n k = .ok (1 - min ((k : K) * div) 1) := by
  cases n with
  | inf => exact ⟨0, le_rfl, fun {k} hk => by simp [serverShade, hi rfl]⟩
  | fin m =>
    have hm : (0 : K) < (m : K) := by exact_mod_cast hn m rfl
    have hd : 0 < sens * (m : K) + 1 := by positivity
    refine ⟨(sens * (m : K) + 1)⁻¹, (inv_pos.mpr hd).le, fun {k} hk => ?_⟩
    simp only [serverShade, if_neg hd.ne', div_eq_mul_inv]

theorem tmp_range {x : K} (h : 0 ≤ x) : 0 ≤ 1 - min x 1 ∧ 1 - min x 1 ≤ 1 :=
  ⟨sub_nonneg.mpr (min_le_right _ _), sub_le_self _ (le_min h zero_le_one)⟩

/-- A QueueServer or LossQueue made with a positive number of servers always has a positive number. -/
theorem servers_pos {c : QCfg T} (hk : Simple c) (h0 : ∀ m, c.servers = .fin m → 0 < m) {b : Bool}
    {ok : QS T → QOp T → Prop} {s : QS T} (h : Reach c b ok s) : ∀ m, s.numServers = .fin m → 0 < m := by
  refine h.induct (P := fun s => ∀ m, s.numServers = .fin m → 0 < m) hk h0 ?_
  intro s s' op hb ih _ ho
  cases ho with
  | ev s' r _ h1 =>
    cases h1 with
    | idle _ _ h2 => rw [h2]; exact ih
    | dep a _ h2 => rw [h2.numServers]; exact ih
    | arr a rest _ _ _ h2 => rw [h2.numServers]; exact ih
    | block a rest _ _ _ _ h2 => rw [h2.numServers]; exact ih
  | srv n s' r h1 =>
    cases h1 with
    | typ => exact ih
    | val => exact ih
    | ok new k deps h1 =>
      intro m hm
      rcases h1 with ⟨m', -, h2, h3⟩ | ⟨-, h3⟩
      · simp only [h3, Cap.fin.injEq] at hm; omega
      · simp [h3] at hm
  | delay t kb s' h1 => cases h1 <;> exact ih
  | clear => unfold Verif.clear; split <;> exact ih
  | _ => exact ih

/-- C67 for QueueServer and LossQueue: in every state after any history, every component of every colour reported
is between 0 and 1, provided that the base colours are proper, `coloring_sensitivity` is not negative, and not zero
with infinitely many servers. MISSING from the full property: those cases, see `C67_zero_sensitivity`. -/
theorem C67_range_partial {c : QCfg T} (hk : Simple c) (h0 : ∀ m, c.servers = .fin m → 0 < m) {col : Colours K}
    (hcol : Proper col) {sens : K} (hsens : 0 ≤ sens) {b : Bool} {s : QS T} (h : Reach c b anyOp s)
    (hi : s.numServers = .inf → sens ≠ 0) (which : Nat) :
    ∃ l, currentColour c col sens s which = .ok l ∧ InRange l := by
  have hn : 0 ≤ s.numSystem := by rw [(h.inv hk).numSystem]; omega
  have h2 : (0 : K) ≤ 1 / 2 ∧ (1 / 2 : K) ≤ 1 := ⟨by norm_num, by norm_num⟩
  have key : ∃ l, serverColour col (decide (c.edge.src = c.edge.tgt)) sens s.numServers s.numSystem which = .ok l ∧
      InRange l := by
    obtain ⟨div, d0, d1⟩ := serverShade_spec hsens (servers_pos hk h0 h) hi
    have ht := tmp_range (mul_nonneg (by exact_mod_cast hn) d0 : (0 : K) ≤ (s.numSystem : K) * div)
    unfold serverColour
    split
    · exact ⟨_, rfl, hcol.edgeLoop.1⟩
    · split
      · exact ⟨_, rfl, hcol.vertex⟩
      · rw [d1 hn]
        simp only
        split
        · exact shaded_range hcol.vertexFill ht ⟨zero_le_one, le_rfl⟩
        · exact shaded_range hcol.edge ht h2
  unfold currentColour
  rcases hk with hk | hk <;> simpa only [hk] using key

/-- C67: of two queues (or two states of one queue) with equally many servers, the one with more agents shows the
darker colour, component by component. -/
theorem C67_darker_partial {col : Colours K} (hcol : Proper col) {sens : K} (hsens : 0 ≤ sens) {n : Cap}
    (hn : ∀ m, n = .fin m → 0 < m) (hi : n = .inf → sens ≠ 0) {k k' : Int} (h0 : 0 ≤ k) (hk : k ≤ k')
    (loop : Bool) (which : Nat) :
    ∃ l l', serverColour col loop sens n k which = .ok l ∧ serverColour col loop sens n k' which = .ok l' ∧
      Darker l' l := by
  obtain ⟨div, d0, d1⟩ := serverShade_spec hsens hn hi
  have ht : (1 : K) - min ((k' : K) * div) 1 ≤ 1 - min ((k : K) * div) 1 := by
    refine sub_le_sub_left (min_le_min_right _ (mul_le_mul_of_nonneg_right ?_ d0)) _
    exact_mod_cast hk
  have hsh : ∀ (base : List K) alpha, InRange base ∧ 4 ≤ base.length →
      ∃ l l', shaded base (1 - min ((k : K) * div) 1) alpha = .ok l ∧
        shaded base (1 - min ((k' : K) * div) 1) alpha = .ok l' ∧ Darker l' l := by
    intro base alpha hb
    refine ⟨_, _, by unfold shaded; rw [if_neg (by omega)], by unfold shaded; rw [if_neg (by omega)], ?_⟩
    exact darker_set (darker_map fun x hx => mul_le_mul_of_nonneg_left ht (hb.1 x hx).1)
  unfold serverColour
  rw [d1 h0, d1 (h0.trans hk)]
  simp only
  split
  · exact ⟨_, _, rfl, rfl, darker_refl _⟩
  · split
    · exact ⟨_, _, rfl, rfl, darker_refl _⟩
    · split
      · exact hsh _ _ hcol.vertexFill
      · exact hsh _ _ hcol.edge

/-- C67 is strict while the colour is not black: one more agent darkens every component but the fourth that is
not zero. -/
theorem C67_strictly_darker {sens : K} (hsens : 0 ≤ sens) {m : Int} (hm : 0 < m) {k k' : Int} (h0 : 0 ≤ k)
    (hk : k < k') (hb : (k : K) < sens * m + 1) {base : List K} (hbase : 4 ≤ base.length) :
    ∃ t t' : K, serverShade sens (.fin m) k = .ok t ∧ serverShade sens (.fin m) k' = .ok t' ∧ t' < t ∧
      ∀ i x, i ≠ 3 → base[i]? = some x → 0 < x → ∀ l l' : List K, ∀ alpha, shaded base t alpha = .ok l →
        shaded base t' alpha = .ok l' → ∃ y y', l[i]? = some y ∧ l'[i]? = some y' ∧ y' < y := by
  have hd : 0 < sens * (m : K) + 1 := by
    have : (0 : K) < (m : K) := by exact_mod_cast hm
    positivity
  have ht : 1 - min ((k' : K) / (sens * m + 1)) 1 < 1 - min ((k : K) / (sens * m + 1)) 1 := by
    refine sub_lt_sub_left ?_ _
    have h1 : (k : K) / (sens * m + 1) < 1 := (div_lt_one hd).mpr hb
    rw [min_eq_left h1.le]
    refine lt_min ?_ h1
    exact (div_lt_div_iff_of_pos_right hd).mpr (by exact_mod_cast hk)
  refine ⟨_, _, by simp only [serverShade, if_neg hd.ne'], by simp only [serverShade, if_neg hd.ne'], ht, ?_⟩
  intro i x hi hx hpos l l' alpha hl hl'
  unfold shaded at hl hl'
  rw [if_neg (by omega)] at hl hl'
  simp only [Except.ok.injEq] at hl hl'
  subst hl hl'
  refine ⟨_, _, by rw [List.getElem?_set_ne (Ne.symm hi), List.getElem?_map, hx]; rfl,
    by rw [List.getElem?_set_ne (Ne.symm hi), List.getElem?_map, hx]; rfl, mul_lt_mul_of_pos_left ht hpos⟩

/-- `ResourceQueue`: the shade is a number for non-negative numbers of servers that are not infinite along with
`max_servers`. -/
theorem resourceShade_spec {n cap : Cap} (hn : ∀ m, n = .fin m → 0 ≤ m) (hi : ¬ (n = .inf ∧ cap = .inf)) :
    ∃ t : K, resourceShade n cap = .ok t ∧ 0 ≤ t ∧ t ≤ 9 / 10 := by
  cases n with
  | inf =>
    cases cap with
    | inf => exact absurd ⟨rfl, rfl⟩ hi
    | fin c => exact ⟨0, rfl, le_rfl, by norm_num⟩
  | fin m =>
    cases cap with
    | inf => exact ⟨9 / 10, rfl, by norm_num, le_rfl⟩
    | fin c =>
      refine ⟨_, rfl, sub_nonneg.mpr (min_le_right _ _), sub_le_self _ (le_min (div_nonneg ?_ ?_) (by norm_num))⟩
      · exact_mod_cast hn m rfl
      · split
        · norm_num
        · rename_i hc
          have : (0 : K) < (c : K) := by exact_mod_cast (by omega : 0 < c)
          positivity

/-- C67 for ResourceQueue: every component of every colour is between 0 and 1, provided that `set_num_servers` is not
called with a negative number, and unless `num_servers` and `max_servers` are both infinite. MISSING from the full
property: those cases, see `C67_negative_servers` and `C67_infinite_resource`. -/
theorem C67_resource_partial {c : QCfg T} (hk : c.kind = .resource) (h0 : ∀ m, c.servers = .fin m → 0 ≤ m)
    {col : Colours K} (hcol : Proper col) {sens : K} {b : Bool} {s : QS T}
    (h : Reach c b (fun _ op => ∀ k, op = .setServers (.int k) → 0 ≤ k) s)
    (hi : ¬ (s.numServers = .inf ∧ c.maxServers = .inf)) (which : Nat) :
    ∃ l, currentColour c col sens s which = .ok l ∧ InRange l := by
  obtain ⟨t, ht, h1⟩ := resourceShade_spec (K := K) (ResourceSpec.C69_nonneg hk h0 h) hi
  have h2 : (0 : K) ≤ 1 / 2 ∧ (1 / 2 : K) ≤ 1 := ⟨by norm_num, by norm_num⟩
  unfold currentColour
  simp only [hk]
  unfold resourceColour
  split
  · exact ⟨_, rfl, hcol.vertexPen⟩
  · rw [ht]
    simp only
    split
    · exact shaded9_range hcol.edgeLoop h1 ⟨le_rfl, zero_le_one⟩
    · split
      · exact shaded9_range hcol.vertexFill h1 ⟨zero_le_one, le_rfl⟩
      · exact shaded9_range hcol.edge h1 h2

theorem resourceShade_mono {cap : Cap} {n n' : Int} (h : n ≤ n') {t t' : K}
    (ht : resourceShade (.fin n) cap = .ok t) (ht' : resourceShade (.fin n') cap = .ok t') : t' ≤ t := by
  cases cap with
  | inf =>
    simp only [resourceShade, Except.ok.injEq] at ht ht'
    rw [← ht, ← ht']
  | fin c =>
    simp only [resourceShade, Except.ok.injEq] at ht ht'
    rw [← ht, ← ht']
    refine sub_le_sub_left (min_le_min_right _ (div_le_div_of_nonneg_right (by exact_mod_cast h) ?_)) _
    split
    · norm_num
    · rename_i hc
      have : (0 : K) < (c : K) := by exact_mod_cast (by omega : 0 < c)
      positivity

/-- A ResourceQueue shows the darker colour the more servers (resources) it has; the number of agents has no effect. -/
theorem C67_resource_darker_partial {col : Colours K} (hcol : Proper col) {n n' : Int} (h0 : 0 ≤ n) (h : n ≤ n')
    (cap : Cap) (loop : Bool) (which : Nat) :
    ∃ l l', resourceColour col loop (.fin n) cap which = .ok l ∧ resourceColour col loop (.fin n') cap which = .ok l' ∧
      Darker l' l := by
  obtain ⟨t, ht, -, -⟩ := resourceShade_spec (K := K) (n := .fin n) (cap := cap)
    (fun m hm => by simp only [Cap.fin.injEq] at hm; omega) (by simp)
  obtain ⟨t', ht', -, -⟩ := resourceShade_spec (K := K) (n := .fin n') (cap := cap)
    (fun m hm => by simp only [Cap.fin.injEq] at hm; omega) (by simp)
  have hle := resourceShade_mono h ht ht'
  have hsh : ∀ (base : List K) alpha, InRange base ∧ 4 ≤ base.length →
      ∃ l l', shaded9 base t alpha = .ok l ∧ shaded9 base t' alpha = .ok l' ∧ Darker l' l := by
    intro base alpha hb
    refine ⟨_, _, by unfold shaded9; rw [if_neg (by omega)], by unfold shaded9; rw [if_neg (by omega)], ?_⟩
    exact darker_set (darker_map fun x hx =>
      div_le_div_of_nonneg_right (mul_le_mul_of_nonneg_left hle (hb.1 x hx).1) (by norm_num))
  unfold resourceColour
  rw [ht, ht']
  simp only
  split
  · exact ⟨_, _, rfl, rfl, darker_refl _⟩
  · split
    · exact hsh _ _ hcol.edgeLoop
    · split
      · exact hsh _ _ hcol.vertexFill
      · exact hsh _ _ hcol.edge

/-- C67 for NullQueue: the base colours, whatever happens: `edge_loop_color` for the line of a loop, `vertex_pen_color` for
the pen, otherwise `vertex_fill_color` for a loop and `edge_color` for any other edge. -/
theorem C67_null {c : QCfg T} (hk : c.kind = .null) {col : Colours K} (hcol : Proper col) (sens : K) (s : QS T)
    (which : Nat) : (which = 1 → currentColour c col sens s which = .ok col.edgeLoop) ∧
      (which = 2 → currentColour c col sens s which = .ok col.vertex) ∧
      (which ≠ 1 → which ≠ 2 → c.edge.src = c.edge.tgt → currentColour c col sens s which = .ok col.vertexFill) ∧
      (which ≠ 1 → which ≠ 2 → c.edge.src ≠ c.edge.tgt → currentColour c col sens s which = .ok col.edge) ∧
      ∃ l, currentColour c col sens s which = .ok l ∧ InRange l := by
  have e : currentColour c col sens s which = nullColour col (decide (c.edge.src = c.edge.tgt)) which := by
    unfold currentColour; simp only [hk]
  rw [e]
  refine ⟨?_, ?_, ?_, ?_, ?_⟩
  · rintro rfl; rfl
  · rintro rfl; rfl
  · intro h1 h2 h3; simp [nullColour, h1, h2, h3]
  · intro h1 h2 h3; simp [nullColour, h1, h2, h3]
  unfold nullColour
  split
  · exact ⟨_, rfl, hcol.edgeLoop.1⟩
  · split
    · exact ⟨_, rfl, hcol.vertex⟩
    · split
      · exact ⟨_, rfl, hcol.vertexFill.1⟩
      · exact ⟨_, rfl, hcol.edge.1⟩

theorem sumCap_fin (ins : List (Int × Cap)) : ∀ a : Int, 0 ≤ a → (∀ p ∈ ins, ∀ m, p.2 = .fin m → 0 ≤ m) →
    ∀ m, ins.foldl (fun (cap : Cap) p => cap.add p.2) (.fin a) = .fin m → 0 ≤ m := by
  have hinf : ∀ (ins : List (Int × Cap)), ins.foldl (fun (cap : Cap) p => cap.add p.2) .inf = .inf := by
    intro ins
    induction ins with
    | nil => rfl
    | cons p ins ih => simpa [Cap.add] using ih
  induction ins with
  | nil => intro a ha _ m hm; simp only [List.foldl_nil, Cap.fin.injEq] at hm; omega
  | cons p ins ih =>
    intro a ha hp m hm
    obtain ⟨k, c⟩ := p
    cases c with
    | inf =>
      have e : Cap.add (.fin a) .inf = .inf := rfl
      rw [List.foldl_cons, e, hinf] at hm
      exact absurd hm (by simp)
    | fin n =>
      rw [List.foldl_cons] at hm
      have := hp (k, .fin n) (by simp) n rfl
      exact ih (a + n) (by omega) (fun p h => hp p (by simp [h])) m hm

theorem vertexColour_spec (base : List K) {ins : List (Int × Cap)} (hn : ∀ p ∈ ins, ∀ m, p.2 = .fin m → 0 ≤ m) :
    ∃ div : K, 0 ≤ div ∧ ∀ ins' : List (Int × Cap), ins'.map Prod.snd = ins.map Prod.snd →
      vertexColour base ins' = shaded base (1 - min (((ins'.map Prod.fst).sum : Int) * div) 1) 1 := by
  have hfold : ∀ (ins' : List (Int × Cap)), ins'.foldl (fun (cap : Cap) p => cap.add p.2) (.fin 0) =
      (ins'.map Prod.snd).foldl Cap.add (.fin 0) := by
    intro ins'
    rw [List.foldl_map]
  have hpos := sumCap_fin ins 0 le_rfl hn
  cases hc : ins.foldl (fun (cap : Cap) p => cap.add p.2) (.fin 0) with
  | inf =>
    refine ⟨0, le_rfl, fun ins' h => ?_⟩
    unfold vertexColour
    rw [hfold, h, ← hfold, hc]
    simp
  | fin m =>
    have hm : (0 : K) ≤ (m : K) := by exact_mod_cast hpos m hc
    have hd : (0 : K) < 2 * (m : K) + 2 := by positivity
    refine ⟨(2 * (m : K) + 2)⁻¹, (inv_pos.mpr hd).le, fun ins' h => ?_⟩
    unfold vertexColour
    rw [hfold, h, ← hfold, hc]
    simp only [if_neg hd.ne', div_eq_mul_inv]

/-- C67 for a vertex: its colour has components between 0 and 1, and gets darker when more agents are on the edges into
it and the numbers of servers stay. -/
theorem C67_vertex {base : List K} (hb : InRange base ∧ 4 ≤ base.length) {ins ins' : List (Int × Cap)}
    (hn : ∀ p ∈ ins, ∀ m, p.2 = .fin m → 0 ≤ m) (hp : 0 ≤ (ins.map Prod.fst).sum)
    (hs : ins'.map Prod.snd = ins.map Prod.snd) (hle : (ins.map Prod.fst).sum ≤ (ins'.map Prod.fst).sum) :
    ∃ l l', vertexColour base ins = .ok l ∧ vertexColour base ins' = .ok l' ∧ InRange l ∧ InRange l' ∧ Darker l' l := by
  obtain ⟨div, d0, d1⟩ := vertexColour_spec base hn
  have t1 := tmp_range (mul_nonneg (by exact_mod_cast hp) d0 : (0 : K) ≤ ((ins.map Prod.fst).sum : Int) * div)
  have t2 := tmp_range (mul_nonneg (by exact_mod_cast hp.trans hle) d0 :
    (0 : K) ≤ ((ins'.map Prod.fst).sum : Int) * div)
  have ht : (1 : K) - min (((ins'.map Prod.fst).sum : Int) * div) 1 ≤ 1 - min (((ins.map Prod.fst).sum : Int) * div) 1 := by
    refine sub_le_sub_left (min_le_min_right _ (mul_le_mul_of_nonneg_right ?_ d0)) _
    exact_mod_cast hle
  obtain ⟨l, e1, r1⟩ := shaded_range hb t1 ⟨zero_le_one, le_rfl⟩
  obtain ⟨l', e2, r2⟩ := shaded_range hb t2 ⟨zero_le_one, le_rfl⟩
  refine ⟨l, l', by rw [d1 ins rfl, e1], by rw [d1 ins' hs, e2], r1, r2, ?_⟩
  unfold shaded at e1 e2
  rw [if_neg (by omega)] at e1 e2
  simp only [Except.ok.injEq] at e1 e2
  subst e1 e2
  exact darker_set (darker_map fun x hx => mul_le_mul_of_nonneg_left ht (hb.1 x hx).1)

/-! ### Counterexamples -/

/-- Proper colours. -/
def greys : Colours ℚ := ⟨[0, 0, 0, 0], [9/10, 9/10, 9/10, 1/2], [9/10, 9/10, 9/10, 1], [0, 1/2, 1, 1], [0, 1/2, 1, 1]⟩

theorem greys_proper : Proper greys := by
  constructor <;> simp only [greys, InRange] <;> norm_num

/-- With `coloring_sensitivity = 0` and infinitely many servers the components are `nan`. -/
theorem C67_zero_sensitivity : serverColour greys false 0 .inf 3 0 = .error .nan := by
  simp [serverColour, serverShade]

/-- A negative `coloring_sensitivity` makes the colour brighter than white, or raises ZeroDivisionError. -/
theorem C67_negative_sensitivity :
    serverColour greys false (-1) (.fin 2) 3 0 = .ok [18/5, 18/5, 18/5, 1/2] ∧
    serverColour greys false (-1) (.fin 1) 3 0 = .error .zeroDivision := by
  constructor
  · simp only [serverColour, serverShade, shaded, greys]; norm_num
  · simp only [serverColour, serverShade, shaded, greys]; norm_num

/-- A ResourceQueue takes negative numbers of servers (`set_num_servers` is overridden without the check): the
component is larger than 1. -/
theorem C67_negative_servers :
    let s := resOps (ResourceSpec.resDemo 2) true [.setServers (.int (-6))]
    Reach (ResourceSpec.resDemo 2) true anyOp s ∧ s.numServers = .fin (-6) ∧
    currentColour (ResourceSpec.resDemo 2) greys 2 s 0 = .ok [14/10, 14/10, 14/10, 1/2] := by
  refine ⟨reachOps _ _ _ (by decide +kernel), by decide +kernel, ?_⟩
  have : (resOps (ResourceSpec.resDemo 2) true [.setServers (.int (-6))]).numServers = .fin (-6) := by decide +kernel
  unfold currentColour
  rw [this]
  simp only [ResourceSpec.resDemo, resourceColour, resourceShade, shaded9, greys, demo]
  norm_num

/-- With infinitely many servers and infinite `max_servers` the components are `nan`. -/
theorem C67_infinite_resource : resourceColour greys false .inf .inf 0 = .error .nan := by
  simp [resourceColour, resourceShade]

/-- C67, exactly: a QueueServer with `m` servers and `k` agents multiplies the base colour by `1 - min(k / (sens * m + 1), 1)`; a
ResourceQueue with `m` servers of at most `cap` multiplies it by `1 - min(m / (2.7 * cap), 1)`, or by `1 - min(m / 4.5, 1)` if `cap`
is at most 1. The fourth component is 1/2 for an edge and 1 for a vertex; for the line of a loop at a ResourceQueue it is 0. -/
theorem C67_exact {col : Colours K} {sens : K} {m cap k : Int} (hd : sens * (m : K) + 1 ≠ 0) {which : Nat} (h1 : which ≠ 1) (h2 : which ≠ 2)
    {l l' : List K} {loop : Bool} :
    (serverColour col loop sens (.fin m) k which = .ok l → ∀ i,
      l[i]? = if i = 3 then some (if loop then 1 else 1 / 2)
        else (if loop then col.vertexFill else col.edge)[i]?.map fun x => x * (1 - min ((k : K) / (sens * m + 1)) 1)) ∧
    (resourceColour col loop (.fin m) (.fin cap) which = .ok l → ∀ i,
      l[i]? = if i = 3 then some (if loop then 1 else 1 / 2)
        else (if loop then col.vertexFill else col.edge)[i]?.map fun x =>
          x * (1 - min ((m : K) / (if cap ≤ 1 then 9 / 2 else 27 / 10 * (cap : K) : K)) 1)) ∧
    (resourceColour col loop (.fin m) (.fin cap) 1 = .ok l' → ∀ i,
      l'[i]? = if i = 3 then some 0
        else col.edgeLoop[i]?.map fun x => x * (1 - min ((m : K) / (if cap ≤ 1 then 9 / 2 else 27 / 10 * (cap : K) : K)) 1)) := by
  have hset : ∀ (base : List K) (t a : K), ¬ base.length ≤ 3 → ∀ i,
      ((base.map fun x => x * t).set 3 a)[i]? = if i = 3 then some a else base[i]?.map fun x => x * t := by
    intro base t a hl i
    by_cases hi : i = 3
    · subst hi
      rw [if_pos rfl, List.getElem?_set_self (by simp; omega)]
    · rw [if_neg hi, List.getElem?_set_ne (Ne.symm hi), List.getElem?_map]
  have hsh : ∀ (base : List K) (t a : K) (l : List K), shaded base t a = .ok l → ∀ i,
      l[i]? = if i = 3 then some a else base[i]?.map fun x => x * t := by
    intro base t a l h i
    unfold shaded at h
    split at h
    · cases h
    · rename_i hl
      cases h
      exact hset base t a hl i
  have hsh9 : ∀ (base : List K) (t a : K) (l : List K), shaded9 base t a = .ok l → ∀ i,
      l[i]? = if i = 3 then some a else base[i]?.map fun x => x * (t / (9 / 10)) := by
    intro base t a l h i
    unfold shaded9 at h
    split at h
    · cases h
    · rename_i hl
      cases h
      have : (fun i : K => i * t / (9 / 10)) = fun i => i * (t / (9 / 10)) := by
        funext i; rw [mul_div_assoc]
      rw [this]
      exact hset base _ a hl i
  have ht : ∀ d : K, (9 / 10 - min ((m : K) / d) (9 / 10)) / (9 / 10) = 1 - min ((m : K) / (9 / 10 * d)) 1 := by
    intro d
    have h9 : (0 : K) < 9 / 10 := by norm_num
    have : (m : K) / (9 / 10 * d) = ((m : K) / d) / (9 / 10) := by
      rw [div_div, mul_comm]
    rw [this, sub_div, div_self h9.ne', ← min_div_div_right h9.le, div_self h9.ne']
  have hdiv : (9 / 10 * (if cap ≤ 1 then 5 else 3 * (cap : K)) : K) = (if cap ≤ 1 then 9 / 2 else 27 / 10 * (cap : K) : K) := by
    by_cases hc : cap ≤ 1
    · rw [if_pos hc, if_pos hc]; norm_num
    · rw [if_neg hc, if_neg hc]; ring
  refine ⟨fun h i => ?_, fun h i => ?_, fun h i => ?_⟩
  · unfold serverColour serverShade at h
    simp only [if_neg h1, if_neg h2, if_neg hd] at h
    cases loop with
    | true => exact hsh _ _ _ _ h i
    | false => exact hsh _ _ _ _ h i
  · unfold resourceColour resourceShade at h
    simp only [if_neg h1, if_neg h2] at h
    rw [← hdiv, ← ht]
    cases loop with
    | true => exact hsh9 _ _ _ _ h i
    | false => exact hsh9 _ _ _ _ h i
  · unfold resourceColour resourceShade at h
    rw [← hdiv, ← ht]
    exact hsh9 _ _ _ _ h i

/-- C67: a base colour without a fourth component is an IndexError wherever it is the one to be shaded: the fill colour for a loop,
otherwise the colour of the edge; for a vertex, the fill colour of the network. -/
theorem C67_short_colour {col : Colours K} {sens t : K} {n cap : Cap} {k : Int} {which : Nat} :
    (serverShade sens n k = .ok t → which ≠ 1 → which ≠ 2 →
      (col.vertexFill.length < 4 → serverColour col true sens n k which = .error .index) ∧
      (col.edge.length < 4 → serverColour col false sens n k which = .error .index)) ∧
    (resourceShade n cap = .ok t →
      (col.edgeLoop.length < 4 → ∀ loop, resourceColour col loop n cap 1 = .error .index) ∧
      (which ≠ 1 → which ≠ 2 → col.vertexFill.length < 4 → resourceColour col true n cap which = .error .index) ∧
      (which ≠ 1 → which ≠ 2 → col.edge.length < 4 → resourceColour col false n cap which = .error .index)) ∧
    ∀ (base : List K) (ins : List (Int × Cap)), base.length < 4 → (∀ p ∈ ins, ∀ m, p.2 = .fin m → 0 ≤ m) →
      vertexColour base ins = .error .index := by
  refine ⟨fun ht h1 h2 => ⟨fun hl => ?_, fun hl => ?_⟩, fun ht => ⟨fun hl loop => ?_, fun h1 h2 hl => ?_, fun h1 h2 hl => ?_⟩,
    fun base ins hl hn => ?_⟩
  · unfold serverColour shaded
    simp only [if_neg h1, if_neg h2, ht, if_true]
    rw [if_pos (by omega)]
  · unfold serverColour shaded
    simp only [if_neg h1, if_neg h2, ht, Bool.false_eq_true, if_false]
    rw [if_pos (by omega)]
  · unfold resourceColour shaded9
    simp only [ht, if_true, show (1 : Nat) ≠ 2 by decide, if_false]
    rw [if_pos (by omega)]
  · unfold resourceColour shaded9
    simp only [if_neg h1, if_neg h2, ht, if_true]
    rw [if_pos (by omega)]
  · unfold resourceColour shaded9
    simp only [if_neg h1, if_neg h2, ht, Bool.false_eq_true, if_false]
    rw [if_pos (by omega)]
  · obtain ⟨div, d0, d1⟩ := vertexColour_spec base hn
    rw [d1 ins rfl]
    unfold shaded
    rw [if_pos (by omega)]

/-- A base colour without a fourth component raises IndexError. -/
theorem C67_three_components :
    serverColour { greys with edge := [9/10, 9/10, 9/10] } false 2 (.fin 1) 0 0 = .error .index := by
  simp only [serverColour, serverShade, shaded, greys]; norm_num

/-! ### The hypotheses are met -/

/-- An empty queue, one with an agent and one that is full (black). -/
example : serverColour greys false 2 (.fin 2) 0 0 = .ok [9/10, 9/10, 9/10, 1/2] ∧
    serverColour greys false 2 (.fin 2) 1 0 = .ok [18/25, 18/25, 18/25, 1/2] ∧
    serverColour greys false 2 (.fin 2) 7 0 = .ok [0, 0, 0, 1/2] := by
  refine ⟨?_, ?_, ?_⟩ <;> simp only [serverColour, serverShade, shaded, greys] <;> norm_num

/-- A vertex with two edges into it. -/
example : vertexColour greys.vertexFill [(1, .fin 1), (2, .fin 2)] = .ok [9/16, 9/16, 9/16, 1] := by
  simp only [vertexColour, shaded, greys]; norm_num [Cap.add]

/-- A queue that satisfies the hypotheses of `C67_range_partial` after a nontrivial history. -/
example : Reach demo true anyOp (resOps demo true demoOps) ∧ Simple demo ∧ (∀ m, demo.servers = .fin m → 0 < m) ∧
    (resOps demo true demoOps).numServers ≠ .inf :=
  ⟨reachOps _ _ _ (by decide +kernel), Or.inl rfl, fun m hm => by simp [demo] at hm; omega, by decide +kernel⟩

end Verif.ColourSpec
