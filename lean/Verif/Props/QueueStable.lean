import Verif.Props.Queue5
import Verif.Props.QueueStream
import Mathlib.Probability.StrongLaw
import Mathlib.Probability.Independence.InfinitePi

/-! # C133: a queue with one server in the long run -/

set_option linter.unusedSectionVars false
set_option linter.unusedSimpArgs false

namespace Verif.QueueSpec

open NetSpec (drawn)

variable {T : Type*} [LinearOrder T] [OrderTop T] [Zero T]

/-- A queue that is run by itself: `set_active`, `simulate` and the collection of data. -/
def AloneOk (_ : QS T) (op : QOp T) : Prop := op = .next ∨ op = .setActive ∨ ∃ x, op = .collect x

theorem AloneOk.fcfs {s : QS T} {op : QOp T} (h : AloneOk s op) : FcfsOk s op := by
  rcases h with rfl | rfl | ⟨x, rfl⟩ <;> exact ⟨trivial, by simp, by simp, by simp⟩

/-- The stream of agents never stops. -/
structure Endless (c : QCfg T) : Prop where
  kind : c.kind = .server
  cap : c.activeCap = .inf
  deactive : c.deactiveT = ⊤
  zero : (0 : T) < ⊤
  fin : ∀ j t, t < ⊤ → c.arrivalF j t < ⊤

/-- The agents admitted are those created, but for the last. -/
structure AloneInv (c : QCfg T) (s : QS T) (L : List ((Nat × Nat) × Nat × T)) : Prop where
  calls : s.arrCalls = s.oArrivals
  run : s.active = true → ∃ a, agents s.arrivals = [a] ∧ a.id = (c.edge.idx, s.oArrivals - 1) ∧ a.time = s.nextCt ∧
    s.nextCt = drawn c.arrivalF 0 0 s.oArrivals ∧ s.oArrivals = (atStage 0 L).length + 1
  idle : s.active = false → s.oArrivals = 0 ∧ agents s.arrivals = [] ∧ agents s.departures = [] ∧ s.currentT = 0 ∧
    s.nextCt = 0 ∧ atStage 0 L = []
  made : atStage 0 L = (List.range (atStage 0 L).length).map fun i => ((c.edge.idx, i), drawn c.arrivalF 0 0 (i + 1))

theorem AloneInv.init (c : QCfg T) (b : Bool) : AloneInv c (QS.init c b) [] := by
  constructor <;> simp [QS.init, atStage]

theorem AloneInv.step {c : QCfg T} (hc : Endless c) {s s' : QS T} {op : QOp T} {l : List (QS T)}
    (hok : AloneOk s op) (h : AloneInv c s (stamps s l)) (ho : OpOut c s op s') :
    AloneInv c s' (stamps s' (s :: l)) := by
  have same : ∀ x : List ((Nat × Nat) × Nat), s'.log = s.log ++ x → (∀ p ∈ x, p.2 ≠ 0) →
      atStage 0 (stamps s' (s :: l)) = atStage 0 (stamps s l) := by
    intro x hx h0
    simp only [stamps, hx, List.drop_left, atStage_append]
    have : atStage 0 (x.map fun p => (p.1, p.2, s'.currentT)) = [] := by
      simp only [atStage, List.filterMap_map, List.filterMap_eq_nil_iff, Function.comp_apply]
      intro p hp
      simp [h0 p hp]
    rw [this, List.append_nil]
  rcases hok with rfl | rfl | ⟨x, rfl⟩
  · cases ho with
    | ev s' r _ h1 =>
    cases h1 with
    | idle _ _ h2 =>
      have := same [] (by simp [h2]) (by simp)
      rw [h2] at this ⊢
      exact ⟨h.calls, by rw [this]; exact h.run, by rw [this]; exact h.idle, by rw [this]; exact h.made⟩
    | dep a _ h2 _ =>
      obtain ⟨deps, g1, g2, g3⟩ := h2.served
      have hs : atStage 0 (stamps s' (s :: l)) = atStage 0 (stamps s l) := by
        rcases g3 with ⟨b, rest, -, -, -, -, -, e5, -⟩ | ⟨-, -, -, -, e4, -⟩
        · exact same _ e5 (by simp)
        · exact same _ e4 (by simp)
      refine ⟨by rw [h2.arrCalls, h2.oArrivals, h.calls], ?_, ?_, by rw [hs]; exact h.made⟩
      · rw [hs, h2.active, h2.arrivals, h2.oArrivals, h2.nextCt]; exact h.run
      · intro ha
        rw [h2.active] at ha
        rw [(h.idle ha).2.2.1] at g1
        simp at g1
    | arr a rest _ hlt _ h2 _ =>
      have hact : s.active = true := by
        cases ha : s.active with
        | true => rfl
        | false =>
          have := h2.perm
          rw [(h.idle ha).2.1] at this
          simp at this
      obtain ⟨a', r1, rid, r2, r3, r4⟩ := h.run hact
      have hp := h2.perm
      rw [r1] at hp
      have hp1 := hp.length_eq
      have hr : agents rest = [] := by
        simp at hp1; exact hp1
      rw [hr] at hp
      have haa : a = a' := by simpa using (List.singleton_perm_singleton.mp hp).symm
      subst haa
      have hnow : a.time < ⊤ := by rw [h2.time_eq]; exact hlt
      have hs : atStage 0 (stamps s' (s :: l)) = atStage 0 (stamps s l) ++ [(a.id, a.time)] := by
        rcases h2.served with ⟨-, -, -, -, e4, -⟩ | ⟨-, -, -, -, e4, -⟩ <;>
          simp [stamps, e4, atStage, h2.currentT]
      obtain ⟨ext, e1, e2, e3, -⟩ := h2.ext
      rw [hr] at e2
      generalize hν : s'.nextCt = ν at e1
      generalize hα : s'.active = α at e1
      generalize hκ : s'.arrCalls = κ at e1
      cases e1 with
      | inactive q => rw [hact] at q; cases q
      | early _ q => rw [r2] at q; exact absurd q (lt_irrefl _)
      | off _ _ q => rw [hc.deactive] at q; exact absurd (hc.fin s.arrCalls a.time hnow) (not_lt.mpr q)
      | new _ _ _ =>
        simp only [List.length_singleton] at e3
        refine ⟨by rw [hκ, e3, h.calls], fun _ => ?_, ?_, ?_⟩
        · have := List.perm_singleton.mp e2
          refine ⟨_, this, by simp [e3], by rw [hν], ?_, by rw [e3, hs, r4]; simp⟩
          rw [hν, e3, drawn, h.calls, Nat.zero_add, ← r3, r2]
        · intro hf
          rw [hα, hc.cap] at hf
          simp [Cap.lt] at hf
        · rw [hs]
          conv_lhs => rw [h.made]
          simp only [List.length_append, List.length_singleton, List.range_succ, List.map_append, List.map_cons,
            List.map_nil]
          rw [rid, r2, r3, r4]
          simp
    | block a rest _ _ q _ h2 _ => rw [hc.kind] at q; cases q
  · cases ho with
    | already _ =>
      have := same [] (by simp) (by simp)
      exact ⟨h.calls, by rw [this]; exact h.run, by rw [this]; exact h.idle, by rw [this]; exact h.made⟩
    | act arr ext ν act calls ha h1 h2 h3 =>
      obtain ⟨i1, i2, i3, i4, i5, i6⟩ := h.idle ha
      have := same [] (by simp) (by simp)
      rw [i2] at h3
      cases h1 with
      | early q => simp only [i4, i5] at q; exact absurd q (lt_irrefl _)
      | off _ q => rw [hc.deactive] at q; exact absurd (hc.fin s.arrCalls s.currentT (by rw [i4]; exact hc.zero)) (not_lt.mpr q)
      | new _ _ =>
        have h3' := List.perm_singleton.mp h3
        refine ⟨by simp [h.calls], fun _ => ?_, ?_, by rw [this]; exact h.made⟩
        · refine ⟨_, h3', by simp [newAgent], rfl, ?_, ?_⟩
          · simp [h.calls, i1, i4, drawn]
          · rw [this, i6]; simp [i1]
        · intro hf
          simp [hc.cap, Cap.lt] at hf
  · cases ho with
    | collect =>
      have := same [] (by simp) (by simp)
      exact ⟨h.calls, by rw [this]; exact h.run, by rw [this]; exact h.idle, by rw [this]; exact h.made⟩

theorem Traj.alone {c : QCfg T} (hc : Endless c) {b : Bool} {s : QS T} {l : List (QS T)} (h : Traj c b AloneOk s l) :
    AloneInv c s (stamps s l) := by
  induction h with
  | init => exact AloneInv.init c b
  | step op h1 h2 hr ih =>
    have hk : Simple c := .inl hc.kind
    exact ih.step hc h2 (opOut _ _ _ op hk (h1.reach.base hk) hr)

/-! ## Lindley's recursion in the long run -/

open Filter Topology

/-- Lindley's recursion: how long the `n`-th agent waits at a server, if the `n`-th comes `A n` after the one before and
its service takes `S n`. -/
noncomputable def wait (A S : ℕ → ℝ) : ℕ → ℝ
  | 0 => 0
  | n + 1 => max 0 (wait A S n + S n - A (n + 1))

theorem wait_nonneg (A S : ℕ → ℝ) (n : ℕ) : 0 ≤ wait A S n := by
  cases n with
  | zero => exact le_rfl
  | succ n => exact le_max_left _ _

/-- By how much services exceed times between arrivals. -/
noncomputable def excess (A S : ℕ → ℝ) (n : ℕ) : ℝ := ∑ i ∈ Finset.range n, (S i - A (i + 1))

theorem excess_succ (A S : ℕ → ℝ) (n : ℕ) : excess A S (n + 1) = excess A S n + (S n - A (n + 1)) :=
  Finset.sum_range_succ _ _

/-- The waiting time is the largest excess over a last part of the past. -/
theorem wait_excess (A S : ℕ → ℝ) (n : ℕ) : (∃ k ≤ n, wait A S n = excess A S n - excess A S k) ∧
    ∀ k ≤ n, excess A S n - excess A S k ≤ wait A S n := by
  induction n with
  | zero =>
    refine ⟨⟨0, le_rfl, by simp [wait]⟩, fun k hk => ?_⟩
    obtain rfl : k = 0 := by omega
    simp [wait]
  | succ n ih =>
    obtain ⟨⟨k, hk, h1⟩, h2⟩ := ih
    have hw : wait A S (n + 1) = max 0 (wait A S n + S n - A (n + 1)) := rfl
    constructor
    · rcases max_choice 0 (wait A S n + S n - A (n + 1)) with h | h
      · exact ⟨n + 1, le_rfl, by rw [hw, h]; simp⟩
      · refine ⟨k, by omega, ?_⟩
        rw [hw, h, excess_succ, h1]
        ring
    · intro j hj
      rw [hw]
      rcases Nat.lt_or_ge j (n + 1) with hj' | hj'
      · refine le_trans ?_ (le_max_right _ _)
        have := h2 j (by omega)
        rw [excess_succ]
        linarith
      · obtain rfl : j = n + 1 := by omega
        simp

theorem wait_limit {A S : ℕ → ℝ} {μ : ℝ} (h : Tendsto (fun n : ℕ => excess A S n / n) atTop (𝓝 μ)) :
    Tendsto (fun n : ℕ => wait A S n / n) atTop (𝓝 (max 0 μ)) := by
  have bound : ∀ ε > 0, ∃ C, 0 ≤ C ∧ ∀ k : ℕ, |excess A S k - k * μ| ≤ C + ε * k := by
    intro ε hε
    obtain ⟨K, hK⟩ := Metric.tendsto_atTop.mp h ε hε
    refine ⟨∑ k ∈ Finset.range (K + 1), |excess A S k - k * μ|, Finset.sum_nonneg fun _ _ => abs_nonneg _, fun k => ?_⟩
    rcases Nat.lt_or_ge k (K + 1) with hk | hk
    · have h1 : |excess A S k - k * μ| ≤ ∑ k ∈ Finset.range (K + 1), |excess A S k - k * μ| :=
        Finset.single_le_sum (f := fun k : ℕ => |excess A S k - k * μ|) (fun _ _ => abs_nonneg _)
          (Finset.mem_range.mpr hk)
      have h2 : 0 ≤ ε * k := by positivity
      linarith
    · have h1 := hK k (by omega)
      have hk0 : (0 : ℝ) < k := by exact_mod_cast (by omega : 0 < k)
      rw [Real.dist_eq] at h1
      have h2 : |excess A S k - k * μ| = k * |excess A S k / k - μ| := by
        rw [← abs_of_pos hk0, ← abs_mul, abs_of_pos hk0]
        congr 1
        field_simp
      have h3 : 0 ≤ ∑ k ∈ Finset.range (K + 1), |excess A S k - k * μ| := Finset.sum_nonneg fun _ _ => abs_nonneg _
      rw [h2]
      nlinarith
  refine Metric.tendsto_atTop.mpr fun ε hε => ?_
  obtain ⟨C, hC, hb⟩ := bound (ε / 6) (by positivity)
  obtain ⟨N, hN⟩ := exists_nat_gt (6 * C / ε)
  refine ⟨N + 1, fun n hn => ?_⟩
  have hn0 : (0 : ℝ) < n := by exact_mod_cast (by omega : 0 < n)
  have hnC : C < ε / 6 * n := by
    have h1 : (N : ℝ) ≤ n := by exact_mod_cast (by omega : N ≤ n)
    have h2 : 6 * C / ε < n := hN.trans_le h1
    rw [div_lt_iff₀ hε] at h2
    linarith
  obtain ⟨⟨k, hk, h1⟩, h2⟩ := wait_excess A S n
  have hbn := hb n
  have hbk := hb k
  have hkn : (k : ℝ) ≤ n := by exact_mod_cast hk
  have hk0 : (0 : ℝ) ≤ k := Nat.cast_nonneg k
  rw [abs_le] at hbn hbk
  have upper : wait A S n ≤ n * max 0 μ + ε / 6 * n * 4 := by
    have h3 : (n - k : ℝ) * μ ≤ n * max 0 μ := by
      have h4 : (n - k : ℝ) * μ ≤ (n - k) * max 0 μ := mul_le_mul_of_nonneg_left (le_max_right _ _) (by linarith)
      have h5 : (n - k : ℝ) * max 0 μ ≤ n * max 0 μ := mul_le_mul_of_nonneg_right (by linarith) (le_max_left _ _)
      exact h4.trans h5
    have h6 : ε / 6 * k ≤ ε / 6 * n := mul_le_mul_of_nonneg_left hkn (by positivity)
    rw [h1]
    nlinarith
  have lower : n * max 0 μ - ε / 6 * n * 4 ≤ wait A S n := by
    rcases max_choice 0 μ with h3 | h3 <;> rw [h3]
    · have := wait_nonneg A S n
      have : 0 ≤ ε / 6 * n := by positivity
      linarith
    · have := h2 0 (by omega)
      simp only [excess, Finset.range_zero, Finset.sum_empty, sub_zero] at this
      have h4 := hbn.1
      simp only [excess] at h4
      nlinarith
  rw [Real.dist_eq, abs_lt]
  constructor
  · rw [lt_sub_iff_add_lt, lt_div_iff₀ hn0]
    nlinarith
  · rw [sub_lt_iff_lt_add, div_lt_iff₀ hn0]
    nlinarith

/-- With a negative drift infinitely many agents do not wait. -/
theorem wait_returns {A S : ℕ → ℝ} {μ : ℝ} (h : Tendsto (fun n : ℕ => excess A S n / n) atTop (𝓝 μ)) (hμ : μ < 0) :
    ∃ᶠ n in atTop, wait A S n = 0 := by
  intro hc
  obtain ⟨N, hN⟩ := eventually_atTop.mp hc
  have hw : ∀ n, N ≤ n → wait A S n = wait A S N + (excess A S n - excess A S N) := by
    intro n hn
    induction n, hn using Nat.le_induction with
    | base => simp
    | succ n hn ih =>
      have h1 := hN (n + 1) (by omega)
      have h2 : wait A S (n + 1) = max 0 (wait A S n + S n - A (n + 1)) := rfl
      rcases max_choice 0 (wait A S n + S n - A (n + 1)) with h3 | h3
      · exact absurd (h2.trans h3) h1
      · rw [h2, h3, ih, excess_succ]; ring
  have h1 := wait_limit h
  rw [max_eq_left hμ.le] at h1
  have h2 : Tendsto (fun n : ℕ => (wait A S N - excess A S N) / n + excess A S n / n) atTop (𝓝 (0 + μ)) :=
    (tendsto_const_div_atTop_nhds_zero_nat _).add h
  have h3 : (fun n : ℕ => (wait A S N - excess A S N) / n + excess A S n / n) =ᶠ[atTop] fun n => wait A S n / n := by
    filter_upwards [eventually_ge_atTop N] with n hn
    rw [hw n hn]
    ring
  have := tendsto_nhds_unique (h2.congr' h3) h1
  linarith

/-! ## The queue -/

/-- One server and an endless stream; the `j`-th call of `arrival_f` adds `A j` to the time, that of `service_f` `S j`. -/
structure OneServer (c : QCfg (WithTop ℝ)) (A S : ℕ → ℝ) : Prop where
  kind : c.kind = .server
  servers : c.servers = .fin 1
  cap : c.activeCap = .inf
  deactive : c.deactiveT = ⊤
  arr : ∀ j t, c.arrivalF j t = t + (A j : ℝ)
  svc : ∀ j t, c.serviceF j t = t + (S j : ℝ)
  arr_nonneg : ∀ j, 0 ≤ A j
  svc_nonneg : ∀ j, 0 ≤ S j

namespace OneServer

variable {c : QCfg (WithTop ℝ)} {A S : ℕ → ℝ}

theorem endless (h : OneServer c A S) : Endless c where
  kind := h.kind
  cap := h.cap
  deactive := h.deactive
  zero := WithTop.coe_lt_top (0 : ℝ)
  fin j t ht := by
    rw [h.arr]
    exact WithTop.add_lt_top.mpr ⟨ht, WithTop.coe_lt_top _⟩

theorem le_add_coe (t : WithTop ℝ) {x : ℝ} (hx : 0 ≤ x) : t ≤ t + (x : WithTop ℝ) := by
  cases t with
  | top => simp
  | coe t => exact_mod_cast le_add_of_nonneg_right hx

theorem forward (h : OneServer c A S) : Forward c :=
  ⟨fun n t => by rw [h.arr]; exact le_add_coe t (h.arr_nonneg n),
    fun n t => by rw [h.svc]; exact le_add_coe t (h.svc_nonneg n)⟩

theorem drawn_eq (h : OneServer c A S) (n : ℕ) :
    drawn c.arrivalF 0 0 n = ((∑ j ∈ Finset.range n, A j : ℝ) : WithTop ℝ) := by
  induction n with
  | zero => rfl
  | succ n ih =>
    rw [drawn, ih, h.arr, Finset.sum_range_succ, Nat.zero_add]
    norm_cast

/-- When the `i`-th agent comes, and when its service starts. -/
theorem times (h : OneServer c A S) {b : Bool} {s : QS (WithTop ℝ)} {l : List (QS (WithTop ℝ))}
    (ht : Traj c b AloneOk s l) (i : ℕ) :
    (∀ p, (atStage 0 (stamps s l))[i]? = some p →
      p = ((c.edge.idx, i), ((∑ j ∈ Finset.range (i + 1), A j : ℝ) : WithTop ℝ))) ∧
    ∀ p, (atStage 1 (stamps s l))[i]? = some p →
      p = ((c.edge.idx, i), ((∑ j ∈ Finset.range (i + 1), A j + wait A S i : ℝ) : WithTop ℝ)) := by
  have hk : Simple c := .inl h.kind
  have hf := h.forward
  have hT : Traj c b FcfsOk s l := Traj.mono (fun _ _ => AloneOk.fcfs) ht
  have hal := Traj.alone h.endless ht
  have hin := hT.fcfsInv hk hf rfl
  obtain ⟨hids, hst, -⟩ := C83_start_times hk hf hT
  have arr : ∀ (i : ℕ) (p : (Nat × Nat) × WithTop ℝ), (atStage 0 (stamps s l))[i]? = some p →
      p = ((c.edge.idx, i), ((∑ j ∈ Finset.range (i + 1), A j : ℝ) : WithTop ℝ)) := by
    intro i p hp
    rw [hal.made] at hp
    obtain ⟨hi, hp⟩ := List.getElem?_eq_some_iff.mp hp
    rw [← hp]
    simp [h.drawn_eq]
  have len : (atStage 1 (stamps s l)).length ≤ (atStage 0 (stamps s l)).length := by
    have := hin.fcfs.1
    simpa using this
  have ids : ∀ (i : ℕ) (p q : (Nat × Nat) × WithTop ℝ), (atStage 1 (stamps s l))[i]? = some p →
      (atStage 0 (stamps s l))[i]? = some q → p.1 = q.1 := by
    intro i p q hp hq
    have h1 : ((atStage 1 (stamps s l)).map Prod.fst ++ s.queue.map (·.id))[i]? = some p.1 := by
      obtain ⟨hi, hp'⟩ := List.getElem?_eq_some_iff.mp hp
      rw [List.getElem?_append_left (by simpa using hi), List.getElem?_map, hp]
      rfl
    rw [hids, List.getElem?_map, hq] at h1
    simpa using h1.symm
  refine ⟨arr i, ?_⟩
  induction i with
  | zero =>
    intro p hp
    obtain ⟨hi, -⟩ := List.getElem?_eq_some_iff.mp hp
    obtain ⟨q, hq⟩ : ∃ q, (atStage 0 (stamps s l))[0]? = some q := ⟨_, List.getElem?_eq_getElem (by omega)⟩
    have hq' := arr 0 q hq
    obtain ⟨⟨t1, t2⟩, t3⟩ := hst 0 q.2 p.2 (by rw [List.getElem?_map, hq]; rfl) (by rw [List.getElem?_map, hp]; rfl)
    have h2 : p.2 = q.2 := le_antisymm (t3 q.2 le_rfl (by simp [h.servers, Cap.lt])) t1
    have h1 := ids 0 p q hp hq
    rw [Prod.ext h1 h2, hq']
    simp [wait]
  | succ i ih =>
    intro p hp
    obtain ⟨hi, -⟩ := List.getElem?_eq_some_iff.mp hp
    obtain ⟨q, hq⟩ : ∃ q, (atStage 0 (stamps s l))[i + 1]? = some q := ⟨_, List.getElem?_eq_getElem (by omega)⟩
    obtain ⟨u, hu⟩ : ∃ u, (atStage 1 (stamps s l))[i]? = some u := ⟨_, List.getElem?_eq_getElem (by omega)⟩
    have hq' := arr (i + 1) q hq
    have hu' := ih u hu
    have h2 := C83_lindley hk hf h.servers hT (i := i) (a := q.2) (t := p.2) (u := u.2)
      (by rw [List.getElem?_map, hq]; rfl) (by rw [List.getElem?_map, hp]; rfl) (by rw [List.getElem?_map, hu]; rfl)
    have h1 := ids (i + 1) p q hp hq
    rw [hq'] at h1
    refine Prod.ext h1 ?_
    rw [h2, hq', hu', h.svc]
    simp only
    norm_cast
    rw [wait, Finset.sum_range_succ _ (i + 1), ← max_add_add_left]
    congr 1
    · ring
    · ring

end OneServer

namespace AloneInv

theorem next_active {c : QCfg T} (hc : Endless c) {s s' : QS T} {l : List (QS T)} (ha : s.active = true)
    (hA : HeapOK s.arrivals) (h : AloneInv c s (stamps s l)) (ho : OpOut c s .next s') :
    s'.active = true ∧ (atStage 0 (stamps s' (s :: l))).length + (atStage 2 (stamps s' (s :: l))).length =
      (atStage 0 (stamps s l)).length + (atStage 2 (stamps s l)).length + 1 := by
  obtain ⟨a0, r1, -, r2, r3, r4⟩ := h.run ha
  have hfin : a0.time < ⊤ := by
    rw [r2, r3]
    generalize s.oArrivals = n
    induction n with
    | zero => exact hc.zero
    | succ n ih => exact hc.fin _ _ ih
  have inv := AloneInv.step hc (.inl rfl) h ho
  cases ho with
  | ev s' r hr h1 =>
  have act : s.oArrivals ≤ s'.oArrivals → s'.active = true := by
    intro hle
    cases hx : s'.active with
    | true => rfl
    | false =>
      have := (inv.idle hx).1
      omega
  cases h1 with
  | idle q _ h2 =>
    have := hA.le a0 (by rw [r1]; simp)
    rw [q] at this
    exact absurd hfin (not_lt.mpr this)
  | dep a _ h2 _ =>
    refine ⟨act h2.oArrivals.ge, ?_⟩
    obtain ⟨deps, g1, g2, g3⟩ := h2.served
    rcases g3 with ⟨b, rest, -, -, -, -, -, e5, -⟩ | ⟨-, -, -, -, e4, -⟩
    · simp [stamps, e5, atStage]; omega
    · simp [stamps, e4, atStage]; omega
  | arr a rest _ hlt _ h2 _ =>
    obtain ⟨ext, e1, e2, e3, -⟩ := h2.ext
    refine ⟨act (by omega), ?_⟩
    rcases h2.served with ⟨-, -, -, -, e4, -⟩ | ⟨-, -, -, -, e4, -⟩ <;>
      simp [stamps, e4, atStage] <;> omega
  | block a rest _ _ q _ h2 _ => rw [hc.kind] at q; cases q

end AloneInv

/-- A queue that is active goes on: as many further events take place as are asked for. -/
theorem Traj.onward {c : QCfg T} (hc : Endless c) {b : Bool} {s : QS T} {l : List (QS T)} (h : Traj c b AloneOk s l)
    (ha : s.active = true) (n : ℕ) : ∃ s' l', Traj c b AloneOk s' l' ∧ (s :: l) <:+ (s' :: l') ∧ s'.active = true ∧
      (atStage 0 (stamps s' l')).length + (atStage 2 (stamps s' l')).length =
        (atStage 0 (stamps s l)).length + (atStage 2 (stamps s l)).length + n := by
  induction n with
  | zero => exact ⟨s, l, h, List.suffix_refl _, ha, rfl⟩
  | succ n ih =>
    obtain ⟨s1, l1, g1, g2, g3, g4⟩ := ih
    have hk : Simple c := .inl hc.kind
    have hb := g1.reach.base hk
    obtain ⟨s2, r, e1, -⟩ := nextEvent_spec c s1 hk hb.okA hb.okD
    have hr : QOp.run c s1 .next = .ok s2 := by simp [QOp.run, e1]
    obtain ⟨e2, e3⟩ := (Traj.alone hc g1).next_active hc g3 hb.okA (opOut c s1 s2 .next hk hb hr)
    exact ⟨s2, s1 :: l1, .step .next g1 (.inl rfl) hr, g2.trans (List.suffix_cons _ _), e2, by omega⟩

namespace OneServer

variable {c : QCfg (WithTop ℝ)} {A S : ℕ → ℝ}

theorem start_mono (h : OneServer c A S) {i j : ℕ} (hij : i < j) :
    ∑ k ∈ Finset.range (i + 1), A k + wait A S i + S i ≤ ∑ k ∈ Finset.range (j + 1), A k + wait A S j := by
  have one : ∀ i, ∑ k ∈ Finset.range (i + 1), A k + wait A S i + S i ≤
      ∑ k ∈ Finset.range (i + 1 + 1), A k + wait A S (i + 1) := by
    intro i
    rw [Finset.sum_range_succ _ (i + 1), wait]
    have := le_max_right 0 (wait A S i + S i - A (i + 1))
    linarith
  induction j, hij using Nat.le_induction with
  | base => exact one i
  | succ j _ ih =>
    have h1 := one j
    have h2 := h.svc_nonneg j
    linarith

/-- Nobody waits for ever. -/
theorem starts (h : OneServer c A S) (hA : ∀ x, ∃ n, x < ∑ j ∈ Finset.range n, A j) {b : Bool} {s : QS (WithTop ℝ)}
    {l : List (QS (WithTop ℝ))} (ht : Traj c b AloneOk s l) (ha : s.active = true) (i : ℕ) :
    ∃ s' l', Traj c b AloneOk s' l' ∧ (s :: l) <:+ (s' :: l') ∧ i < (atStage 1 (stamps s' l')).length := by
  have hk : Simple c := .inl h.kind
  have hf := h.forward
  obtain ⟨K, hK⟩ := hA (∑ j ∈ Finset.range (i + 1), A j + wait A S i)
  have hmono : Monotone fun n => ∑ j ∈ Finset.range n, A j := by
    refine monotone_nat_of_le_succ fun n => ?_
    rw [Finset.sum_range_succ]
    exact le_add_of_nonneg_right (h.arr_nonneg n)
  obtain ⟨s', l', g1, g2, g3, g4⟩ := Traj.onward h.endless ht ha (2 * (K + i + 1))
  refine ⟨s', l', g1, g2, ?_⟩
  have hT : Traj c b FcfsOk s' l' := Traj.mono (fun _ _ => AloneOk.fcfs) g1
  have hin := hT.fcfsInv hk hf rfl
  have hal := Traj.alone h.endless g1
  have len1 : (atStage 1 (stamps s' l')).length ≤ (atStage 0 (stamps s' l')).length := by
    have := hin.fcfs.1
    simpa using this
  have len2 : (agents s'.departures).length + (atStage 2 (stamps s' l')).length = (atStage 1 (stamps s' l')).length := by
    have := hin.out.length_eq
    simpa [ends] using this
  by_contra hcon
  have hlen : K + i + 1 ≤ (atStage 0 (stamps s' l')).length := by omega
  -- the clock is past the time at which the agent should have started
  have clock : ((∑ j ∈ Finset.range (i + 1), A j + wait A S i : ℝ) : WithTop ℝ) < s'.currentT := by
    obtain ⟨q, hq⟩ : ∃ q, (atStage 0 (stamps s' l'))[K + i]? = some q := ⟨_, List.getElem?_eq_getElem (by omega)⟩
    have h1 := (h.times g1 (K + i)).1 q hq
    have h2 := hin.early q (List.mem_of_getElem? hq)
    rw [h1] at h2
    refine lt_of_lt_of_le ?_ h2
    have h3 := hK.trans_le (hmono (show K ≤ K + i + 1 by omega))
    simp only at h3 ⊢
    exact_mod_cast h3
  -- somebody is in service
  have hq : s'.queue ≠ [] := by
    intro h0
    have := congrArg List.length hin.fifo
    rw [h0] at this
    simp at this
    omega
  have hw := (g1.reach.inv hk).work hq
  rw [hin.srv, h.servers] at hw
  have hpos : 0 < (agents s'.departures).length := by
    by_contra h0
    rw [Nat.eq_zero_of_not_pos h0] at hw
    simp [Cap.lt] at hw
  obtain ⟨a, hadep⟩ := List.exists_mem_of_length_pos hpos
  have h1 : s'.currentT ≤ a.time :=
    (hT.reach.clock hk hf fun _ _ h => h.1).dep a hadep
  have h2 : (a.id, a.time) ∈ ((atStage 1 (stamps s' l')).map Prod.fst).zip
      (ends c.serviceF ((atStage 1 (stamps s' l')).map Prod.snd)) :=
    hin.out.subset (List.mem_append_left _ (List.mem_map.mpr ⟨a, hadep, rfl⟩))
  obtain ⟨j, hj⟩ := List.mem_iff_getElem?.mp (List.of_mem_zip h2).2
  simp only [ends, List.getElem?_mapIdx, List.getElem?_map, Option.map_map, Option.map_eq_some_iff] at hj
  obtain ⟨p, hp, hpt⟩ := hj
  have hj' : j < (atStage 1 (stamps s' l')).length := (List.getElem?_eq_some_iff.mp hp).1
  have h3 := (h.times g1 j).2 p hp
  have h4 := h.start_mono (show j < i by omega)
  simp only [Function.comp_apply, h3, h.svc] at hpt
  rw [← hpt] at h1
  have h5 := clock.trans_le h1
  norm_cast at h5
  linarith

end OneServer

/-! ## The statements -/

/-- C133: a `QueueServer` with one server that is run by itself, and into which agents come without end, the `j`-th
`A j` after the one before, with services that take `S 0`, `S 1`, ...: the `i`-th agent comes at `A 0 + ... + A i` and
its service starts `wait A S i` later. -/
theorem C133_waiting_times {c : QCfg (WithTop ℝ)} {A S : ℕ → ℝ} (h : OneServer c A S) {b : Bool} {s : QS (WithTop ℝ)}
    {l : List (QS (WithTop ℝ))} (ht : Traj c b AloneOk s l) (i : ℕ) :
    (∀ p, (atStage 0 (stamps s l))[i]? = some p →
      p = ((c.edge.idx, i), ((∑ j ∈ Finset.range (i + 1), A j : ℝ) : WithTop ℝ))) ∧
    ∀ p, (atStage 1 (stamps s l))[i]? = some p →
      p = ((c.edge.idx, i), ((∑ j ∈ Finset.range (i + 1), A j + wait A S i : ℝ) : WithTop ℝ)) :=
  h.times ht i

/-- C133: nobody waits for ever, if the times of arrival are not bounded. -/
theorem C133_starts {c : QCfg (WithTop ℝ)} {A S : ℕ → ℝ} (h : OneServer c A S)
    (hA : ∀ x, ∃ n, x < ∑ j ∈ Finset.range n, A j) {b : Bool} {s : QS (WithTop ℝ)}
    {l : List (QS (WithTop ℝ))} (ht : Traj c b AloneOk s l) (ha : s.active = true) (i : ℕ) :
    ∃ s' l', Traj c b AloneOk s' l' ∧ (s :: l) <:+ (s' :: l') ∧ i < (atStage 1 (stamps s' l')).length :=
  h.starts hA ht ha i

open MeasureTheory ProbabilityTheory

/-- The times between arrivals and the times that services take are independent, each of one law with a mean. -/
structure RenewalInput {Ω : Type*} [MeasurableSpace Ω] (P : Measure Ω) (A S : ℕ → Ω → ℝ) : Prop where
  meas : ∀ x, Measurable (Sum.elim A S x)
  indep : iIndepFun (Sum.elim A S) P
  arr : ∀ i, IdentDistrib (A i) (A 0) P P
  svc : ∀ i, IdentDistrib (S i) (S 0) P P
  arr_int : Integrable (A 0) P
  svc_int : Integrable (S 0) P

section
variable {Ω : Type*} [MeasurableSpace Ω] {P : Measure Ω} [IsProbabilityMeasure P] {A S : ℕ → Ω → ℝ}

theorem RenewalInput.excess_limit (h : RenewalInput P A S) :
    ∀ᵐ ω ∂P, Tendsto (fun n : ℕ => excess (A · ω) (S · ω) n / n) atTop (𝓝 (∫ ω, S 0 ω ∂P - ∫ ω, A 0 ω ∂P)) := by
  have hm : Measurable fun p : ℝ × ℝ => p.1 - p.2 := by fun_prop
  have hA : ∀ i, Measurable (A i) := fun i => h.meas (.inl i)
  have hS : ∀ i, Measurable (S i) := fun i => h.meas (.inr i)
  have pair : ∀ i, P.map (fun ω => (S i ω, A (i + 1) ω)) = (P.map (S 0)).prod (P.map (A 0)) := by
    intro i
    have h1 : S i ⟂ᵢ[P] A (i + 1) := h.indep.indepFun (i := .inr i) (j := .inl (i + 1)) (by simp)
    rw [(indepFun_iff_map_prod_eq_prod_map_map (hS i).aemeasurable (hA (i + 1)).aemeasurable).mp h1,
      (h.svc i).map_eq, (h.arr (i + 1)).map_eq]
  have key := strong_law_ae_real (μ := P) (fun i ω => S i ω - A (i + 1) ω)
    (h.svc_int.sub ((h.arr 1).integrable_iff.mpr h.arr_int)) ?_ ?_
  · have hmean : ∫ ω, (S 0 ω - A (0 + 1) ω) ∂P = ∫ ω, S 0 ω ∂P - ∫ ω, A 0 ω ∂P := by
      rw [integral_sub h.svc_int ((h.arr 1).integrable_iff.mpr h.arr_int), (h.arr 1).integral_eq]
    rw [hmean] at key
    exact key
  · intro i j hij
    have h1 := h.indep.indepFun_prodMk_prodMk h.meas (.inr i) (.inl (i + 1)) (.inr j) (.inl (j + 1)) (by simpa using hij)
      (by simp) (by simp) (by simpa using hij)
    exact h1.comp hm hm
  · intro i
    have h1 : IdentDistrib (fun ω => (S i ω, A (i + 1) ω)) (fun ω => (S 0 ω, A (0 + 1) ω)) P P :=
      ⟨((hS i).prodMk (hA _)).aemeasurable, ((hS 0).prodMk (hA _)).aemeasurable, by rw [pair i, pair 0]⟩
    exact h1.comp hm

theorem RenewalInput.unbounded (h : RenewalInput P A S) (hpos : 0 < ∫ ω, A 0 ω ∂P) :
    ∀ᵐ ω ∂P, ∀ x, ∃ n, x < ∑ j ∈ Finset.range n, A j ω := by
  have key := strong_law_ae_real (μ := P) A h.arr_int
    (fun i j hij => h.indep.indepFun (i := .inl i) (j := .inl j) (by simpa using hij)) h.arr
  filter_upwards [key] with ω hω x
  have h1 : Tendsto (fun n : ℕ => (∑ i ∈ Finset.range n, A i ω) / n * n) atTop atTop :=
    hω.pos_mul_atTop hpos tendsto_natCast_atTop_atTop
  obtain ⟨n, hn1, hn2⟩ := ((h1.eventually_gt_atTop x).and (eventually_gt_atTop 0)).exists
  refine ⟨n, ?_⟩
  have : (n : ℝ) ≠ 0 := by exact_mod_cast hn2.ne'
  rwa [div_mul_cancel₀ _ this] at hn1

/-- C133: if the times between arrivals and the services are independent, each of one law, with means `α > 0` and `σ`,
then with probability 1 there are waiting times `W 0`, `W 1`, ... such that in every history of the queue the service of
the `n`-th agent starts `W n` after its arrival, once the queue is active every agent's service starts in the end, `W n / n`
tends to `max 0 (σ - α)`, and if `σ < α` infinitely many agents do not wait at all. -/
theorem C133_long_run (h : RenewalInput P A S) (hpos : 0 < ∫ ω, A 0 ω ∂P) {c : Ω → QCfg (WithTop ℝ)}
    (hc : ∀ ω, OneServer (c ω) (A · ω) (S · ω)) :
    ∀ᵐ ω ∂P, ∃ W : ℕ → ℝ,
      (∀ b s l, Traj (c ω) b AloneOk s l →
        (∀ n p q, (atStage 0 (stamps s l))[n]? = some p → (atStage 1 (stamps s l))[n]? = some q →
          q.1 = p.1 ∧ q.2 = p.2 + (W n : WithTop ℝ)) ∧
        (s.active = true → ∀ n, ∃ s' l', Traj (c ω) b AloneOk s' l' ∧ (s :: l) <:+ (s' :: l') ∧
          n < (atStage 1 (stamps s' l')).length)) ∧
      Tendsto (fun n : ℕ => W n / n) atTop (𝓝 (max 0 (∫ ω, S 0 ω ∂P - ∫ ω, A 0 ω ∂P))) ∧
      (∫ ω, S 0 ω ∂P < ∫ ω, A 0 ω ∂P → ∃ᶠ n in atTop, W n = 0) := by
  filter_upwards [h.excess_limit, h.unbounded hpos] with ω h1 h2
  refine ⟨wait (A · ω) (S · ω), fun b s l ht => ⟨fun n p q hp hq => ?_, fun ha n => (hc ω).starts h2 ht ha n⟩,
    wait_limit h1, fun hlt => wait_returns h1 (by linarith)⟩
  obtain ⟨e1, e2⟩ := (hc ω).times ht n
  rw [e1 p hp, e2 q hq]
  exact ⟨rfl, by norm_cast⟩

end

/-- A queue with given times between arrivals and given times of services. -/
noncomputable def givenQueue (A S : ℕ → ℝ) : QCfg (WithTop ℝ) where
  kind := .server
  edge := ⟨0, 1, 7, 1⟩
  servers := .fin 1
  arrivalF := fun j t => t + (A j : ℝ)
  serviceF := fun j t => t + (S j : ℝ)
  factory := .plain
  activeCap := .inf
  deactiveT := ⊤
  buffer := .fin 0
  maxServers := .inf

theorem givenQueue_one {A S : ℕ → ℝ} (hA : ∀ j, 0 ≤ A j) (hS : ∀ j, 0 ≤ S j) : OneServer (givenQueue A S) A S :=
  ⟨rfl, rfl, rfl, rfl, fun _ _ => rfl, fun _ _ => rfl, hA, hS⟩

/-- `set_active` on a new queue of this kind makes it active. -/
theorem Endless.start {c : QCfg (WithTop ℝ)} (hc : Endless c) (b : Bool) :
    ∃ s, Traj c b AloneOk s [QS.init c b] ∧ s.active = true := by
  have hk : Simple c := .inl hc.kind
  have hb := (Reach.init (c := c) (b := b) (ok := AloneOk)).base hk
  obtain ⟨arr, ext, ν, act, calls, h1, -, -, h2⟩ := setActive_spec c (QS.init c b) hk.ne_null hb.okA hb.time rfl
  refine ⟨_, .step .setActive .init (.inr (.inl rfl)) h2, ?_⟩
  cases h1 with
  | early q => exact absurd q (lt_irrefl _)
  | off _ q => rw [hc.deactive] at q; exact absurd (hc.fin _ _ hc.zero) (not_lt.mpr q)
  | new _ _ => simp [hc.cap, Cap.lt]

/-- Arrivals at 1, 2, 3, ..., services that take 3: there is a history in which the fifth agent's service starts, at
5 + 8. -/
example : ∃ s l, Traj (givenQueue (fun _ => 1) fun _ => 3) true AloneOk s l ∧
    (atStage 1 (stamps s l))[4]? = some ((7, 4), ((13 : ℝ) : WithTop ℝ)) := by
  have h : OneServer (givenQueue (fun _ => 1) fun _ => 3) (fun _ => 1) fun _ => 3 :=
    givenQueue_one (fun _ => by norm_num) fun _ => by norm_num
  obtain ⟨s, h1, h2⟩ := h.endless.start true
  obtain ⟨s', l', h3, -, h4⟩ := C133_starts h (fun x => by simpa using exists_nat_gt x) h1 h2 4
  refine ⟨s', l', h3, ?_⟩
  rw [List.getElem?_eq_getElem h4]
  congr 1
  rw [(C133_waiting_times h h3 4).2 _ (List.getElem?_eq_getElem h4)]
  have hw : wait (fun _ => 1) (fun _ => 3) 4 = 8 := by norm_num [wait]
  rw [hw]
  norm_num [givenQueue]

/-- The law `α` for the times between arrivals and `σ` for the services. -/
def laws (α σ : Measure ℝ) : ℕ ⊕ ℕ → Measure ℝ
  | .inl _ => α
  | .inr _ => σ

instance (α σ : Measure ℝ) [IsProbabilityMeasure α] [IsProbabilityMeasure σ] (x : ℕ ⊕ ℕ) :
    IsProbabilityMeasure (laws α σ x) := by
  cases x <;> simp only [laws] <;> infer_instance

/-- The hypotheses are met for all laws of times that have a mean. -/
theorem C133_met (α σ : Measure ℝ) [IsProbabilityMeasure α] [IsProbabilityMeasure σ] (hα : Integrable id α)
    (hσ : Integrable id σ) :
    RenewalInput (Measure.infinitePi (laws α σ)) (fun i ω => |ω (.inl i)|) (fun i ω => |ω (.inr i)|) ∧
    (∫ ω, |ω (.inl 0)| ∂Measure.infinitePi (laws α σ) = ∫ x, |x| ∂α) ∧
    (∫ ω, |ω (.inr 0)| ∂Measure.infinitePi (laws α σ) = ∫ x, |x| ∂σ) ∧
    ∀ ω : ℕ ⊕ ℕ → ℝ, OneServer (givenQueue (fun i => |ω (.inl i)|) fun i => |ω (.inr i)|) (fun i => |ω (.inl i)|)
      fun i => |ω (.inr i)| := by
  have ev : ∀ x, (Measure.infinitePi (laws α σ)).map (fun ω => ω x) = laws α σ x := fun x =>
    Measure.infinitePi_map_eval (laws α σ) x
  have abs1 : Measurable fun x : ℝ => |x| := by fun_prop
  have idd : ∀ x y, laws α σ x = laws α σ y → IdentDistrib (fun ω : ℕ ⊕ ℕ → ℝ => |ω x|) (fun ω => |ω y|)
      (Measure.infinitePi (laws α σ)) (Measure.infinitePi (laws α σ)) := by
    intro x y hxy
    have : IdentDistrib (fun ω : ℕ ⊕ ℕ → ℝ => ω x) (fun ω => ω y)
        (Measure.infinitePi (laws α σ)) (Measure.infinitePi (laws α σ)) :=
      ⟨(measurable_pi_apply x).aemeasurable, (measurable_pi_apply y).aemeasurable, by rw [ev, ev, hxy]⟩
    exact this.comp abs1
  have int : ∀ x, Integrable id (laws α σ x) → Integrable (fun ω : ℕ ⊕ ℕ → ℝ => |ω x|)
      (Measure.infinitePi (laws α σ)) := by
    intro x hx
    rw [← ev x] at hx
    exact ((integrable_map_measure aestronglyMeasurable_id (measurable_pi_apply x).aemeasurable).mp hx).abs
  have mean : ∀ x, ∫ ω, |ω x| ∂Measure.infinitePi (laws α σ) = ∫ y, |y| ∂laws α σ x := by
    intro x
    rw [← ev x, integral_map (measurable_pi_apply x).aemeasurable abs1.aestronglyMeasurable]
  have fam : Sum.elim (fun i (ω : ℕ ⊕ ℕ → ℝ) => |ω (.inl i)|) (fun i ω => |ω (.inr i)|) = fun x ω => |ω x| := by
    funext x ω
    cases x <;> rfl
  refine ⟨⟨?_, ?_, fun i => idd _ _ rfl, fun i => idd _ _ rfl, int _ hα, int _ hσ⟩, mean _, mean _, fun ω => ?_⟩
  · intro x
    rw [fam]
    exact abs1.comp (measurable_pi_apply x)
  · rw [fam]
    exact iIndepFun_infinitePi (X := fun _ x => |x|) fun _ => abs1
  · exact givenQueue_one (fun _ => abs_nonneg _) fun _ => abs_nonneg _

/-- Services take 0 or 3, with probability 1/2 each. -/
noncomputable def coin : Measure ℝ := (1 / 2 : ENNReal) • Measure.dirac 0 + (1 / 2 : ENNReal) • Measure.dirac 3

instance : IsProbabilityMeasure coin :=
  ⟨by simp [coin, ENNReal.inv_two_add_inv_two]⟩

theorem coin_int : Integrable id coin := by
  refine Integrable.add_measure ?_ ?_ <;> exact (integrable_dirac (by simp)).smul_measure (by simp)

theorem coin_mean : ∫ x, |x| ∂coin = 3 / 2 := by
  rw [coin, integral_add_measure, integral_smul_measure, integral_smul_measure]
  · simp
    norm_num
  all_goals exact (integrable_dirac (by simp)).smul_measure (by simp)

/-- Arrivals every 2: waiting times are small compared with their number, and there are always agents again that do not
wait. Arrivals every 1: the `n`-th agent waits for about `n / 2`. -/
example (d : ℝ) (hd : 0 < d) : ∀ᵐ ω ∂Measure.infinitePi (laws (Measure.dirac d) coin), ∃ W : ℕ → ℝ,
    (∀ b s l, Traj (givenQueue (fun i => |ω (.inl i)|) fun i => |ω (.inr i)|) b AloneOk s l →
      ∀ n p q, (atStage 0 (stamps s l))[n]? = some p → (atStage 1 (stamps s l))[n]? = some q →
        q.1 = p.1 ∧ q.2 = p.2 + (W n : WithTop ℝ)) ∧
    (d = 2 → Tendsto (fun n : ℕ => W n / n) atTop (𝓝 0) ∧ ∃ᶠ n in atTop, W n = 0) ∧
    (d = 1 → Tendsto (fun n : ℕ => W n / n) atTop (𝓝 (1 / 2))) := by
  obtain ⟨h1, h2, h3, h4⟩ := C133_met (Measure.dirac d) coin (integrable_dirac (by simp)) coin_int
  rw [integral_dirac, abs_of_pos hd] at h2
  rw [coin_mean] at h3
  have key := C133_long_run h1 (by rw [h2]; exact hd) h4
  rw [h2, h3] at key
  filter_upwards [key] with ω ⟨W, g1, g2, g3⟩
  refine ⟨W, fun b s l ht => (g1 b s l ht).1, ?_, ?_⟩
  · rintro rfl
    exact ⟨by convert g2 using 2; norm_num, g3 (by norm_num)⟩
  · rintro rfl
    convert g2 using 2
    norm_num


end Verif.QueueSpec
