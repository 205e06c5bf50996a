import Verif.GraphGen
import Verif.Props.Graph
import Verif.Props.UnionFind

/-! # Properties C63, C64, C65: the graph generators -/

namespace Verif.GenSpec

open Verif.UFSpec Verif.GSpec

/-! ## C63 -/

/-- All vertices below `n` are connected by the pairs in `E`. -/
def Connected (n : Nat) (E : List (Nat × Nat)) : Prop := ∀ u < n, ∀ v < n, Conn E u v

theorem Conn.of_all {E F : List (Nat × Nat)} (h : ∀ e ∈ E, Conn F e.1 e.2) {x y : Nat} (hc : Conn E x y) :
    Conn F x y := by
  induction hc with
  | rel x y hxy => exact h _ hxy
  | refl x => exact .refl x
  | symm x y _ ih => exact .symm _ _ ih
  | trans x y z _ _ h1 h2 => exact .trans _ _ _ h1 h2

theorem Conn.appears {E : List (Nat × Nat)} {x y : Nat} (hc : Conn E x y) :
    x = y ∨ ((∃ e ∈ E, x = e.1 ∨ x = e.2) ∧ ∃ e ∈ E, y = e.1 ∨ y = e.2) := by
  induction hc with
  | rel x y hxy => exact .inr ⟨⟨_, hxy, .inl rfl⟩, ⟨_, hxy, .inr rfl⟩⟩
  | refl x => exact .inl rfl
  | symm x y _ ih => rcases ih with h | ⟨h1, h2⟩; exacts [.inl h.symm, .inr ⟨h2, h1⟩]
  | trans x y z _ _ h1 h2 =>
    rcases h1 with rfl | ⟨a, b⟩
    · exact h2
    · rcases h2 with rfl | ⟨c, d⟩
      exacts [.inr ⟨a, b⟩, .inr ⟨a, d⟩]

theorem mem_allPairs {n : Nat} {e : Nat × Nat} : e ∈ allPairs n ↔ e.1 < e.2 ∧ e.2 < n := by
  obtain ⟨i, j⟩ := e
  unfold allPairs
  simp only [List.mem_flatMap, List.mem_range, List.mem_map, List.mem_range'_1, Prod.mk.injEq]
  constructor
  · rintro ⟨k, hk, m, hm, rfl, rfl⟩; omega
  · rintro ⟨h1, h2⟩; exact ⟨i, by omega, j, by omega, rfl, rfl⟩

theorem allPairs_nodup (n : Nat) : (allPairs n).Nodup := by
  unfold allPairs
  rw [List.nodup_flatMap]
  refine ⟨fun k _ => (List.nodup_range' ..).map (fun a b h => by simpa using h), ?_⟩
  refine List.nodup_range.imp ?_
  intro a b hab
  simp only [List.disjoint_left, Function.onFun, List.mem_map]
  rintro e ⟨j, -, rfl⟩ ⟨j', -, h⟩
  simp only [Prod.mk.injEq] at h
  exact hab h.1.symm

section

variable {D : Type*} [LinearOrder D]

instance (d : Nat → Nat → D) : Std.Total (pairLe d) := ⟨fun a b => by
  unfold pairLe
  rcases lt_trichotomy (d a.1 a.2) (d b.1 b.2) with h | h | h
  · exact .inl (.inl h)
  · rcases Std.Total.total (r := edgeLe) a b with h' | h'
    · exact .inl (.inr ⟨h, h'⟩)
    · exact .inr (.inr ⟨h.symm, h'⟩)
  · exact .inr (.inl h)⟩

instance (d : Nat → Nat → D) : IsTrans (Nat × Nat) (pairLe d) := ⟨fun a b c h1 h2 => by
  unfold pairLe at *
  rcases h1 with h1 | ⟨h1, e1⟩ <;> rcases h2 with h2 | ⟨h2, e2⟩
  · exact .inl (h1.trans h2)
  · exact .inl (h2 ▸ h1)
  · exact .inl (h1 ▸ h2)
  · exact .inr ⟨h1.trans h2, IsTrans.trans _ _ _ e1 e2⟩⟩

theorem pairLe.le {d : Nat → Nat → D} {a b : Nat × Nat} (h : pairLe d a b) : d a.1 a.2 ≤ d b.1 b.2 := by
  rcases h with h | ⟨h, -⟩
  exacts [h.le, h.le]

end

/-- One cluster means connected. -/
theorem clusters_one {n : Nat} (hn : 0 < n) {E : List (Nat × Nat)} {u : UF Nat} (h : UFReach (List.range n) E u) :
    u.nClusters = 1 ↔ Connected n E := by
  obtain ⟨L, hnd, hlen, hL, hu⟩ := C62_nClusters h
  simp only [List.mem_range] at hL hu
  rw [← hlen]
  constructor
  · intro h1
    have h1 : L.length = 1 := by exact_mod_cast h1
    obtain ⟨r, rfl⟩ := List.length_eq_one_iff.mp h1
    intro x hx y hy
    obtain ⟨a, ⟨ha, hxa⟩, -⟩ := hu x hx
    obtain ⟨b, ⟨hb, hyb⟩, -⟩ := hu y hy
    simp only [List.mem_singleton] at ha hb
    subst ha; subst hb
    exact .trans _ _ _ hxa (.symm _ _ hyb)
  · intro hc
    obtain ⟨r, ⟨hr, -⟩, huniq⟩ := hu 0 hn
    have : ∀ x ∈ L, x = r := fun x hx => huniq x ⟨hx, hc 0 hn x (hL x hx)⟩
    have hle : L.length ≤ 1 := by
      match L, hnd, this with
      | [], _, _ => simp
      | [_], _, _ => simp
      | a :: b :: l, hnd, this =>
        exfalso
        have h1 := this a (by simp)
        have h2 := this b (by simp)
        simp [h1, h2] at hnd
    have hpos : 0 < L.length := List.length_pos_of_mem hr
    exact_mod_cast (by omega : L.length = 1)

section

variable {A D : Type*} [EmptyCollection A] [LinearOrder D]

omit [LinearOrder D] in
theorem look_addBoth (g : Adj A) (u v i j : Nat) :
    (g.addBoth u v).look i j = if (i = u ∧ j = v) ∨ (i = v ∧ j = u) then some ⟨none, ∅⟩ else g.look i j := by
  unfold Adj.addBoth
  rw [look_addEdge, look_addEdge]
  by_cases h1 : i = v ∧ j = u <;> by_cases h2 : i = u ∧ j = v <;> simp [h1, h2]

omit [EmptyCollection A] [LinearOrder D] in
theorem keys_addEdge (g : Adj A) (u v : Nat) (x : EAttr A) (w : Nat) :
    w ∈ Dict.keys (g.addEdge u v x) ↔ w = u ∨ w = v ∨ w ∈ Dict.keys g := by
  rw [← Dict.get?_isSome, Adj.get?_addEdge, ← Dict.get?_isSome]
  by_cases h1 : w = u
  · simp [h1]
  · by_cases h2 : w = v
    · simp only [h2, if_true, true_or, or_true, iff_true]
      cases Dict.get? g v <;> (split <;> simp_all)
    · simp [h1, h2]

/-- What has been built after the pairs in `used`. -/
structure Joined (used : List (Nat × Nat)) (g : Adj A) : Prop where
  ok : g.Ok
  edge : ∀ i j, (g.look i j).isSome ↔ (i, j) ∈ used ∨ (j, i) ∈ used
  keys : ∀ v, v ∈ Dict.keys g ↔ ∃ e ∈ used, v = e.1 ∨ v = e.2

theorem Joined.add {used : List (Nat × Nat)} {g : Adj A} (h : Joined used g) (u v : Nat) :
    Joined (used ++ [(u, v)]) (g.addBoth u v) := by
  refine ⟨addEdge_ok (addEdge_ok h.ok ..) .., fun i j => ?_, fun w => ?_⟩
  · rw [look_addBoth]
    by_cases hij : (i = u ∧ j = v) ∨ (i = v ∧ j = u)
    · simp only [hij, if_true, Option.isSome_some, true_iff, List.mem_append, List.mem_singleton, Prod.mk.injEq]
      rcases hij with h' | h'
      · exact .inl (.inr h')
      · exact .inr (.inr ⟨h'.2, h'.1⟩)
    · simp only [hij, if_false, h.edge, List.mem_append, List.mem_singleton, Prod.mk.injEq]
      constructor
      · rintro (h' | h')
        exacts [.inl (.inl h'), .inr (.inl h')]
      · rintro ((h' | h') | (h' | h'))
        · exact .inl h'
        · exact absurd (.inl h') hij
        · exact .inr h'
        · exact absurd (.inr ⟨h'.2, h'.1⟩) hij
  · unfold Adj.addBoth
    rw [keys_addEdge, keys_addEdge, h.keys]
    simp only [List.mem_append, List.mem_singleton]
    constructor
    · rintro (rfl | rfl | rfl | rfl | ⟨e, he, hw⟩)
      · exact ⟨_, .inr rfl, .inr rfl⟩
      · exact ⟨_, .inr rfl, .inl rfl⟩
      · exact ⟨_, .inr rfl, .inl rfl⟩
      · exact ⟨_, .inr rfl, .inr rfl⟩
      · exact ⟨e, .inl he, hw⟩
    · rintro ⟨e, he | rfl, hw⟩
      · exact .inr (.inr (.inr (.inr ⟨e, he, hw⟩)))
      · rcases hw with rfl | rfl
        exacts [.inr (.inl rfl), .inl rfl]

/-- The loop: it uses the pairs up to the first one after which everything is connected. -/
theorem joinUntil_spec {n : Nat} (hn : 2 ≤ n) (es : List (Nat × Nat)) : ∀ (used : List (Nat × Nat)) (u : UF Nat) (g : Adj A),
    UFReach (List.range n) used.reverse u → Joined used g → ¬ Connected n used.reverse →
    (∀ e ∈ es, e.1 < n ∧ e.2 < n) → Connected n (used ++ es) →
    ∃ pre last rest g', used ++ es = used ++ (pre ++ last :: rest) ∧ joinUntil es u g = .ok g' ∧
      Joined (used ++ pre ++ [last]) g' ∧ ¬ Connected n (used ++ pre) ∧ Connected n (used ++ pre ++ [last]) := by
  have hrev : ∀ l : List (Nat × Nat), Connected n l.reverse ↔ Connected n l := by
    intro l
    constructor <;> intro h x hx y hy <;>
      exact Conn.of_all (fun e he => .rel _ _ (by simpa using he)) (h x hx y hy)
  induction es with
  | nil =>
    intro used u g hu hj hnc _ hc
    rw [List.append_nil] at hc
    exact absurd ((hrev _).mpr hc) hnc
  | cons e es ih =>
    obtain ⟨a, b⟩ := e
    intro used u g hu hj hnc hlt hc
    have hab := hlt (a, b) (by simp)
    have hs := ((C62_total hu a b).2).mpr ⟨by simpa using hab.1, by simpa using hab.2⟩
    obtain ⟨u', hu'⟩ := Option.isSome_iff_exists.mp hs
    have hreach : UFReach (List.range n) (used ++ [(a, b)]).reverse u' := by
      rw [List.reverse_append]; exact .union a b hu hu'
    have hone := clusters_one (by omega) hreach
    simp only [joinUntil, hu']
    by_cases h1 : u'.nClusters = 1
    · refine ⟨[], (a, b), es, _, rfl, by rw [if_pos h1], ?_, ?_, ?_⟩
      · simpa using hj.add a b
      · simpa using fun h => hnc ((hrev _).mpr h)
      · simpa using (hrev _).mp (hone.mp h1)
    · rw [if_neg h1]
      obtain ⟨pre, last, rest, g', he, hg', hj', hn1, hn2⟩ := ih (used ++ [(a, b)]) u' (g.addBoth a b) hreach
        (hj.add a b) (fun h => h1 (hone.mpr h)) (fun e he => hlt e (by simp [he])) (by simpa using hc)
      refine ⟨(a, b) :: pre, last, rest, g', ?_, hg', by simpa using hj', by simpa using hn1, by simpa using hn2⟩
      simpa using he

/-- The pairs at distance at most `r`. -/
def Within (n : Nat) (d : Nat → Nat → D) (r : D) : List (Nat × Nat) := (allPairs n).filter fun e => d e.1 e.2 ≤ r

/-- C63. `minimal_random_graph(n)` for `n ≥ 2` and any points: the vertices are the numbers below `n`, edges go both
ways, there are no loops, the graph is connected; there is a longest pair such that all shorter pairs are edges, and
without this pair the graph is not connected. -/
theorem C63_minimal {n : Nat} (hn : 2 ≤ n) (d : Nat → Nat → D) : ∃ g : QGraph A, minimalGraph n d = .ok g ∧ Built g ∧
    (∀ v, v ∈ Dict.keys g.adj ↔ v < n) ∧
    (∀ u v, (u, v) ∈ g.adj.edges → u ≠ v ∧ (v, u) ∈ g.adj.edges) ∧
    Connected n g.adj.edges ∧
    ∃ a b, a < b ∧ (a, b) ∈ g.adj.edges ∧
      (∀ i j, i < j → j < n → d i j < d a b → (i, j) ∈ g.adj.edges) ∧
      (∀ i j, i < j → (i, j) ∈ g.adj.edges → d i j ≤ d a b) ∧
      ¬ Connected n (g.adj.edges.filter fun e => e ≠ (a, b) ∧ e ≠ (b, a)) := by
  set es := (allPairs n).insertionSort (pairLe d) with hes
  have hmem : ∀ e, e ∈ es ↔ e.1 < e.2 ∧ e.2 < n := by
    intro e; rw [hes, List.mem_insertionSort, mem_allPairs]
  have hnd : es.Nodup := (List.perm_insertionSort (pairLe d) _).nodup_iff.mpr (allPairs_nodup n)
  have hsort : es.Pairwise (pairLe d) := List.pairwise_insertionSort (pairLe d) _
  have hall : Connected n ([] ++ es) := by
    intro x hx y hy
    rw [List.nil_append]
    rcases lt_trichotomy x y with h | rfl | h
    · exact .rel _ _ ((hmem _).mpr ⟨h, hy⟩)
    · exact .refl _
    · exact .symm _ _ (.rel _ _ ((hmem _).mpr ⟨h, hx⟩))
  have h0 : ¬ Connected n ([] : List (Nat × Nat)).reverse := by
    intro h
    rcases Conn.appears (h 0 (by omega) 1 (by omega)) with h' | ⟨⟨e, he, -⟩, -⟩
    · omega
    · simp at he
  obtain ⟨pre, last, rest, g, he, hg, hj, hn1, hn2⟩ := joinUntil_spec (A := A) hn es [] (UF.new (List.range n)) []
    .new ⟨⟨List.nodup_nil, by simp⟩, fun i j => by simp [Adj.look, Dict.get?], by simp⟩ h0
    (fun e he => by have := (hmem e).mp he; omega) hall
  simp only [List.nil_append] at he hj hn1 hn2
  obtain ⟨a, b⟩ := last
  have hused : ∀ e, e ∈ pre ++ [(a, b)] → e ∈ es := fun e h => by rw [he]; simp at h ⊢; tauto
  have hlast := (hmem _).mp (hused (a, b) (by simp))
  have hedge : ∀ i j, (i, j) ∈ g.edges ↔ (i, j) ∈ pre ++ [(a, b)] ∨ (j, i) ∈ pre ++ [(a, b)] := by
    intro i j; rw [Adj.mem_edges hj.ok, hj.edge]
  have hbelow : ∀ i j, i < j → ((i, j) ∈ g.edges ↔ (i, j) ∈ pre ++ [(a, b)]) := by
    intro i j hij
    rw [hedge]
    constructor
    · rintro (h | h)
      · exact h
      · have := (hmem _).mp (hused _ h); simp only at this; omega
    · exact .inl
  rw [he, List.nodup_append] at hnd
  rw [he, List.pairwise_append] at hsort
  refine ⟨QGraph.ofAdj g, by unfold minimalGraph; rw [hg], .new hj.ok, fun v => ?_, fun u v huv => ?_, ?_,
    a, b, hlast.1, (hbelow a b hlast.1).mpr (by simp), fun i j hij hjn hd => ?_, fun i j hij h => ?_, fun hc => ?_⟩
  · show v ∈ Dict.keys g ↔ _
    rw [hj.keys]
    constructor
    · rintro ⟨e, he', hv⟩
      have := (hmem e).mp (hused e he')
      omega
    · intro hv
      obtain ⟨w, hw, hne⟩ : ∃ w < n, v ≠ w := by
        by_cases h : v = 0
        · exact ⟨1, by omega, by omega⟩
        · exact ⟨0, by omega, h⟩
      rcases Conn.appears (hn2 v hv w hw) with h | ⟨h, -⟩
      · exact absurd h hne
      · exact h
  · have huv := (hedge u v).mp huv
    refine ⟨?_, (hedge v u).mpr huv.symm⟩
    rcases huv with h | h
    · have := (hmem _).mp (hused _ h); simp only at this; omega
    · have := (hmem _).mp (hused _ h); simp only at this; omega
  · intro x hx y hy
    refine Conn.of_all (fun e he' => .rel _ _ ?_) (hn2 x hx y hy)
    exact (hedge e.1 e.2).mpr (.inl he')
  · refine (hbelow i j hij).mpr ?_
    have hin : (i, j) ∈ es := (hmem _).mpr ⟨hij, hjn⟩
    rw [he] at hin
    simp only [List.mem_append, List.mem_cons] at hin
    rcases hin with h | h | h
    · simp [h]
    · simp [h]
    · have := pairLe.le (List.rel_of_pairwise_cons hsort.2.1 h)
      exact absurd hd (not_lt.mpr this)
  · have h := (hbelow i j hij).mp h
    simp only [List.mem_append, List.mem_singleton] at h
    rcases h with h | h
    · exact pairLe.le (hsort.2.2 _ h (a, b) (by simp))
    · simp only [Prod.mk.injEq] at h; rw [h.1, h.2]
  · refine hn1 fun x hx y hy => Conn.of_all (fun e he' => ?_) (hc x hx y hy)
    simp only [List.mem_filter, decide_eq_true_eq] at he'
    obtain ⟨h1, h2, h3⟩ := he'
    rcases (hedge e.1 e.2).mp h1 with h | h
    · simp only [List.mem_append, List.mem_singleton] at h
      rcases h with h | h
      · exact .rel _ _ h
      · exact absurd h h2
    · simp only [List.mem_append, List.mem_singleton] at h
      rcases h with h | h
      · exact .symm _ _ (.rel _ _ h)
      · simp only [Prod.mk.injEq] at h
        exact absurd (Prod.ext h.2 h.1) h3

/-- C63. The length of the longest edge is the least `r` such that joining all pairs at distance at most `r` gives a
connected graph. -/
theorem C63_radius {n : Nat} (hn : 2 ≤ n) (d : Nat → Nat → D) {g : QGraph A} (h : minimalGraph n d = .ok g) :
    ∃ a b, a < b ∧ (a, b) ∈ g.adj.edges ∧ (∀ i j, i < j → (i, j) ∈ g.adj.edges → d i j ≤ d a b) ∧
      Connected n (Within n d (d a b)) ∧ ∀ r, Connected n (Within n d r) → d a b ≤ r := by
  obtain ⟨g', hg', -, hv, hs, hc, a, b, hab, he, h1, h2, h3⟩ := C63_minimal (A := A) hn d
  rw [h] at hg'
  simp only [Except.ok.injEq] at hg'
  subst hg'
  have hlt : ∀ i j, (i, j) ∈ g.adj.edges → i < n ∧ j < n := by
    intro i j hij
    have key : ∀ i j, (i, j) ∈ g.adj.edges → i < n := by
      intro i j hij
      rw [← hv]
      unfold Adj.edges at hij
      obtain ⟨p, hp, hq⟩ := List.mem_flatMap.mp hij
      obtain ⟨q, -, hq⟩ := List.mem_map.mp hq
      simp only [Prod.mk.injEq] at hq
      exact List.mem_map.mpr ⟨p, hp, hq.1⟩
    exact ⟨key i j hij, key j i (hs i j hij).2⟩
  refine ⟨a, b, hab, he, h2, fun x hx y hy => Conn.of_all (fun e he' => ?_) (hc x hx y hy), fun r hr => ?_⟩
  · obtain ⟨i, j⟩ := e
    have hij := hlt i j he'
    have hne := hs i j he'
    rcases lt_trichotomy i j with h' | h' | h'
    · refine .rel _ _ ?_
      simp only [Within, List.mem_filter, mem_allPairs, decide_eq_true_eq]
      exact ⟨⟨h', hij.2⟩, h2 i j h' he'⟩
    · exact absurd h' hne.1
    · refine .symm _ _ (.rel _ _ ?_)
      simp only [Within, List.mem_filter, mem_allPairs, decide_eq_true_eq]
      exact ⟨⟨h', hij.1⟩, h2 j i h' hne.2⟩
  · by_contra hlt'
    rw [not_le] at hlt'
    refine h3 fun x hx y hy => Conn.of_all (fun e he' => .rel _ _ ?_) (hr x hx y hy)
    obtain ⟨i, j⟩ := e
    simp only [Within, List.mem_filter, mem_allPairs, decide_eq_true_eq] at he'
    obtain ⟨⟨hij, hjn⟩, hd⟩ := he'
    have hd' := lt_of_le_of_lt hd hlt'
    simp only [List.mem_filter, decide_eq_true_eq]
    refine ⟨h1 i j hij hjn hd', ?_, ?_⟩
    · rintro h; simp only [Prod.mk.injEq] at h; rw [h.1, h.2] at hd'; exact lt_irrefl _ hd'
    · rintro h; simp only [Prod.mk.injEq] at h; omega

end

/-! ## C64 -/

theorem countP_range {q : Nat → Bool} (hq : ∀ i, q (i + 1) = true → q i = true) (n : Nat) :
    (List.range n).countP q ≤ n ∧ ∀ i < n, q i = true ↔ i < (List.range n).countP q := by
  have down : ∀ i j, i ≤ j → q j = true → q i = true := by
    intro i j hij
    induction hij with
    | refl => exact id
    | step _ ih => exact fun h => ih (hq _ h)
  induction n with
  | zero => simp
  | succ n ih =>
    rw [List.range_succ, List.countP_append, List.countP_singleton]
    obtain ⟨h1, h2⟩ := ih
    cases hn : q n with
    | true =>
      have hall : (List.range n).countP q = n := by
        have : (List.range n).countP q = (List.range n).length :=
          List.countP_eq_length.mpr fun i hi => down i n (List.mem_range.mp hi).le hn
        simpa using this
      rw [hall]
      refine ⟨by simp, fun i hi => ?_⟩
      simp only [if_true]
      exact ⟨fun _ => hi, fun _ => down i n (by omega) hn⟩
    | false =>
      simp only [Bool.false_eq_true, if_false, Nat.add_zero]
      refine ⟨by omega, fun i hi => ?_⟩
      by_cases hin : i < n
      · exact h2 i hin
      · have : i = n := by omega
        subst this
        rw [hn]; simp only [Bool.false_eq_true, false_iff]; omega

section

variable {A K : Type*} [Field K] [LinearOrder K] [IsStrictOrderedRing K]

/-- The sum of the first `k` proportions. -/
def share (props : Dict Int K) (k : Nat) : K := ((props.take k).map Prod.snd).sum

/-- The type that a uniform draw `u` stands for: divide the interval from 0 to 1 in parts proportional to the given
proportions; `t` is the type whose part contains `u`. -/
def Drawn (props : Dict Int K) (u : K) (t : Int) : Prop :=
  ∃ k p, props[k]? = some (t, p) ∧ share props k ≤ u * (props.map Prod.snd).sum ∧
    u * (props.map Prod.snd).sum < share props (k + 1)

theorem sum_take_le {p : List K} (h : ∀ x ∈ p, 0 ≤ x) (k : Nat) : (p.take k).sum ≤ (p.take (k + 1)).sum := by
  by_cases hk : k < p.length
  · rw [List.take_succ_eq_append_getElem hk, List.sum_append]
    simpa using h _ (List.getElem_mem hk)
  · rw [List.take_of_length_le (by omega), List.take_of_length_le (by omega)]

theorem choiceOne_spec {props : Dict Int K} (h0 : ∀ p ∈ props, 0 ≤ p.2) (hs : 0 < (props.map Prod.snd).sum) {u : K}
    (hu : 0 ≤ u) (hu1 : u < 1) : ∃ t, choiceOne (Dict.keys props) (props.map Prod.snd) u = some t ∧ Drawn props u t := by
  set p := props.map Prod.snd with hp
  have hlen : p.length = props.length := by simp [hp]
  have hpos : ∀ x ∈ p, 0 ≤ x := by
    intro x hx
    obtain ⟨q, hq, rfl⟩ := List.mem_map.mp hx
    exact h0 q hq
  let q : Nat → Bool := fun i => decide ((p.take (i + 1)).sum / p.sum ≤ u)
  have hq : ∀ i, q (i + 1) = true → q i = true := by
    intro i hi
    simp only [q, decide_eq_true_eq] at hi ⊢
    exact le_trans (div_le_div_of_nonneg_right (sum_take_le hpos (i + 1)) hs.le) hi
  obtain ⟨hle, hiff⟩ := countP_range hq p.length
  have hcount : ((cumsum p).map (· / p.sum)).countP (fun c => decide (c ≤ u)) = (List.range p.length).countP q := by
    unfold cumsum
    rw [List.countP_map, List.countP_map]
    rfl
  set k := (List.range p.length).countP q with hk
  have hne : 0 < p.length := by
    rcases Nat.eq_zero_or_pos p.length with h | h
    · rw [List.length_eq_zero_iff] at h; rw [h] at hs; simp at hs
    · exact h
  have hlast : q (p.length - 1) = false := by
    simp only [q, decide_eq_false_iff_not, not_le]
    rw [Nat.sub_add_cancel hne, List.take_length, div_self hs.ne']
    exact hu1
  have hkl : k < p.length := by
    by_contra h
    have := (hiff (p.length - 1) (by omega)).mpr (by omega)
    rw [hlast] at this; simp at this
  have hkp : k < props.length := by omega
  refine ⟨(props[k]).1, ?_, k, (props[k]).2, by rw [List.getElem?_eq_getElem hkp], ?_, ?_⟩
  · unfold choiceOne
    rw [hcount]
    unfold Dict.keys
    rw [List.getElem?_map, List.getElem?_eq_getElem hkp]
    rfl
  · unfold share
    rw [List.map_take, ← hp]
    rcases Nat.eq_zero_or_pos k with h | h
    · rw [h]; simpa using mul_nonneg hu hs.le
    · have := (hiff (k - 1) (by omega)).mpr (by omega)
      simp only [q, decide_eq_true_eq] at this
      rw [Nat.sub_add_cancel h] at this
      exact (div_le_iff₀ hs).mp this
  · unfold share
    rw [List.map_take, ← hp]
    have : q k = false := by
      cases hqk : q k with
      | false => rfl
      | true => exact absurd ((hiff k hkl).mp hqk) (lt_irrefl _)
    simp only [q, decide_eq_false_iff_not, not_le] at this
    exact (lt_div_iff₀ hs).mp this

omit [Field K] [LinearOrder K] [IsStrictOrderedRing K] in
theorem collect_some {α : Type*} {l : List (Option α)} (h : ∀ x ∈ l, x.isSome) :
    ∃ r : List α, collect l = some r ∧ r.length = l.length ∧ ∀ (i : Nat) (x : α), l[i]? = some (some x) → r[i]? = some x := by
  induction l with
  | nil => exact ⟨[], rfl, rfl, by simp⟩
  | cons o l ih =>
    obtain ⟨r, h1, h2, h3⟩ := ih fun x hx => h x (by simp [hx])
    obtain ⟨y, rfl⟩ := Option.isSome_iff_exists.mp (h o (by simp))
    refine ⟨y :: r, by simp [collect, h1], by simp [h2], fun i x hx => ?_⟩
    cases i with
    | zero => simpa using hx
    | succ i => simpa using h3 i x (by simpa using hx)

theorem npChoice_spec {sumOk : K → Bool} {props : Dict Int K} (hs : 0 < (props.map Prod.snd).sum) {m : Nat} {rnd : Nat → K}
    (hr : ∀ i, 0 ≤ rnd i ∧ rnd i < 1) :
    ((∃ p ∈ props, p.2 < 0) ∨ sumOk (props.map Prod.snd).sum = false →
      npChoice sumOk (Dict.keys props) (props.map Prod.snd) m rnd = .error .valueError) ∧
    ((∀ p ∈ props, 0 ≤ p.2) → sumOk (props.map Prod.snd).sum = true →
      ∃ vs, npChoice sumOk (Dict.keys props) (props.map Prod.snd) m rnd = .ok vs ∧ vs.length = m ∧
        ∀ i < m, ∃ t, vs[i]? = some t ∧ Drawn props (rnd i) t) := by
  have hneg : (∃ x ∈ props.map Prod.snd, x < 0) ↔ ∃ p ∈ props, p.2 < 0 := by
    simp only [List.mem_map]
    constructor
    · rintro ⟨x, ⟨p, hp, rfl⟩, h⟩; exact ⟨p, hp, h⟩
    · rintro ⟨p, hp, h⟩; exact ⟨_, ⟨p, hp, rfl⟩, h⟩
  unfold npChoice
  constructor
  · rintro (h | h)
    · rw [if_pos (hneg.mpr h)]
    · rw [if_pos h]; split <;> rfl
  · intro h0 h1
    rw [if_neg (by rw [hneg]; rintro ⟨p, hp, hlt⟩; exact absurd (h0 p hp) (not_le.mpr hlt)), if_neg (by simp [h1])]
    obtain ⟨r, hr1, hr2, hr3⟩ := collect_some (l := (List.range m).map fun i =>
        choiceOne (Dict.keys props) (props.map Prod.snd) (rnd i)) (by
      intro x hx
      obtain ⟨i, -, rfl⟩ := List.mem_map.mp hx
      obtain ⟨t, ht, -⟩ := choiceOne_spec h0 hs (hr i).1 (hr i).2
      rw [ht]; rfl)
    rw [hr1]
    refine ⟨r, rfl, by simpa using hr2, fun i hi => ?_⟩
    obtain ⟨t, ht, hd⟩ := choiceOne_spec h0 hs (hr i).1 (hr i).2
    exact ⟨t, hr3 i t (by simp [hi, ht]), hd⟩

end

section

variable {A : Type*}

theorem get?_foldl_set {K V : Type*} [DecidableEq K] (l : Dict K V) : ∀ (d : Dict K V), Dict.Ok l → ∀ e,
    Dict.get? (l.foldl (fun d q => Dict.set d q.1 q.2) d) e = (Dict.get? l e).or (Dict.get? d e) := by
  induction l with
  | nil => intro d _ e; rfl
  | cons q l ih =>
    intro d hok e
    obtain ⟨k, x⟩ := q
    simp only [Dict.Ok, Dict.keys_cons, List.nodup_cons] at hok
    simp only [List.foldl_cons]
    rw [ih _ hok.2, Dict.get?_set, Dict.get?]
    by_cases he : e = k
    · subst he
      have : Dict.get? l e = none := Dict.get?_eq_none.mpr hok.1
      simp [this]
    · simp [he, Ne.symm he]

theorem zip_get? {K V : Type*} [DecidableEq K] {ks : List K} {vs : List V} (hn : ks.Nodup) (hl : vs.length = ks.length)
    {i : Nat} {k : K} {v : V} (hk : ks[i]? = some k) (hv : vs[i]? = some v) : Dict.get? (ks.zip vs) k = some v := by
  refine Dict.get?_of_mem ?_ ?_
  · unfold Dict.Ok Dict.keys
    rw [List.map_fst_zip (by omega)]; exact hn
  · rw [List.mem_iff_getElem?]
    exact ⟨i, by rw [List.getElem?_zip_eq_some]; exact ⟨hk, hv⟩⟩

theorem zip_get?_none {K V : Type*} [DecidableEq K] {ks : List K} {vs : List V} {k : K} (hk : k ∉ ks) :
    Dict.get? (ks.zip vs) k = none := by
  rw [Dict.get?_eq_none]
  intro h
  obtain ⟨p, hp, rfl⟩ := List.mem_map.mp h
  exact hk (List.of_mem_zip hp).1

/-- Setting types along a list of edges. -/
theorem setFrom_spec [EmptyCollection A] (eTypes : Dict (Nat × Nat) Int) (es : List (Nat × Nat)) : ∀ {g : QGraph A}, Built g →
    (∀ e ∈ es, ∃ t, Dict.get? eTypes e = some t) → (∀ e ∈ es, (g.adj.look e.1 e.2).isSome) →
    ∃ g', setFrom eTypes es g = .ok g' ∧ Built g' ∧ Dict.keys g'.adj = Dict.keys g.adj ∧ g'.index = g.index ∧
      ∀ i j, g'.adj.look i j = (g.adj.look i j).map fun x =>
        if (i, j) ∈ es then { x with etype := Dict.get? eTypes (i, j) } else x := by
  induction es with
  | nil => intro g hg _ _; exact ⟨g, rfl, hg, rfl, rfl, fun i j => by cases g.adj.look i j <;> rfl⟩
  | cons e es ih =>
    intro g hg ht hl
    obtain ⟨t, htt⟩ := ht e (by simp)
    obtain ⟨x, hx⟩ := Option.isSome_iff_exists.mp (hl e (by simp))
    obtain ⟨g1, h1, -, hk, hi, -, hlk⟩ := (setEp_spec (Numbered.of_built hg).ok e t).2 x hx
    obtain ⟨g', h1', hb', hk', hi', hl'⟩ := ih (g := g1) (.ep e t hg h1) (fun e' he' => ht e' (by simp [he'])) (by
      intro e' he'
      rw [hlk]
      split
      · rfl
      · exact hl e' (by simp [he']))
    refine ⟨g', by simp only [setFrom, htt, h1, h1'], hb', hk'.trans hk, hi'.trans hi, fun i j => ?_⟩
    rw [hl', hlk]
    by_cases hij : i = e.1 ∧ j = e.2
    · have hij' : (i, j) = e := Prod.ext hij.1 hij.2
      simp only [hij, and_self, if_true, Option.map_some, hx, Prod.mk.eta, List.mem_cons, true_or, htt]
      split <;> rfl
    · have hij' : ¬ (i, j) = e := by rintro rfl; exact hij ⟨rfl, rfl⟩
      simp only [hij, if_false, List.mem_cons, hij', false_or]

end

section

variable {A K : Type*} [EmptyCollection A] [Field K] [LinearOrder K] [IsStrictOrderedRing K]

/-- The edges that are not loops, and the loops, in the order of `g.edges()`. -/
def nonLoops (g : QGraph A) : List (Nat × Nat) := g.adj.edges.filter fun e => e.1 ≠ e.2
def onlyLoops (g : QGraph A) : List (Nat × Nat) := g.adj.edges.filter fun e => e.1 = e.2

/-- The graph has the same vertices, edges, edge numbers and other attributes. -/
structure SameBut (g g' : QGraph A) : Prop where
  built : Built g'
  keys : Dict.keys g'.adj = Dict.keys g.adj
  index : g'.index = g.index
  look : ∀ i j, (g'.adj.look i j).map (·.rest) = (g.adj.look i j).map (·.rest)

/-- C64. When the proportions are accepted: the i-th non-loop edge gets the type that the i-th draw stands for, the i-th loop
that of the i-th draw for loops, and nothing else changes. -/
theorem C64_accepted {isOne sumOk : K → Bool} (hone : ∀ x, isOne x = true → 0 < x) {g : QGraph A} (hg : Built g)
    {props lprops : Dict Int K} {rnd lrnd : Nat → K} (hr : ∀ i, 0 ≤ rnd i ∧ rnd i < 1) (hlr : ∀ i, 0 ≤ lrnd i ∧ lrnd i < 1)
    (h1 : isOne (props.map Prod.snd).sum = true) (h2 : isOne (lprops.map Prod.snd).sum = true)
    (h3 : sumOk (props.map Prod.snd).sum = true) (h4 : sumOk (lprops.map Prod.snd).sum = true)
    (h5 : ∀ p ∈ props, 0 ≤ p.2) (h6 : ∀ p ∈ lprops, 0 ≤ p.2) :
    ∃ g', setTypesRandom isOne sumOk g props lprops rnd lrnd = .ok g' ∧ SameBut g g' ∧
      (∀ i u v, (nonLoops g)[i]? = some (u, v) → ∃ x t, g'.adj.look u v = some x ∧ x.etype = some t ∧ Drawn props (rnd i) t) ∧
      (∀ i v, (onlyLoops g)[i]? = some (v, v) → ∃ x t, g'.adj.look v v = some x ∧ x.etype = some t ∧
        Drawn lprops (lrnd i) t) := by
  have hok := (Numbered.of_built hg).ok
  have hnd := Adj.edges_nodup hok
  obtain ⟨c1, c2, c3⟩ := clearTypes_spec hok
  obtain ⟨vs, hvs, hvl, hvd⟩ := (npChoice_spec (sumOk := sumOk) (m := (nonLoops g).length) (hone _ h1) hr).2 h5 h3
  obtain ⟨ws, hws, hwl, hwd⟩ := (npChoice_spec (sumOk := sumOk) (m := (onlyLoops g).length) (hone _ h2) hlr).2 h6 h4
  have hnl : (nonLoops g).Nodup := hnd.filter _
  have hll : (onlyLoops g).Nodup := hnd.filter _
  set eT : Dict (Nat × Nat) Int := ((nonLoops g).zip vs).foldl (fun d q => Dict.set d q.1 q.2) [] with heT
  set eT' := ((onlyLoops g).zip ws).foldl (fun d q => Dict.set d q.1 q.2) eT with heT'
  have ok1 : Dict.Ok ((nonLoops g).zip vs) := by
    unfold Dict.Ok Dict.keys; rw [List.map_fst_zip (by omega)]; exact hnl
  have ok2 : Dict.Ok ((onlyLoops g).zip ws) := by
    unfold Dict.Ok Dict.keys; rw [List.map_fst_zip (by omega)]; exact hll
  have key1 : ∀ i e, (nonLoops g)[i]? = some e → ∃ t, Dict.get? eT' e = some t ∧ Drawn props (rnd i) t := by
    intro i e he
    obtain ⟨t, ht, hd⟩ := hvd i (List.getElem?_eq_some_iff.mp he).1
    refine ⟨t, ?_, hd⟩
    have hno : e ∉ onlyLoops g := by
      have := List.mem_of_getElem? he
      simp only [nonLoops, onlyLoops, List.mem_filter, decide_eq_true_eq] at this ⊢
      tauto
    rw [heT', get?_foldl_set _ _ ok2, zip_get?_none hno, Option.none_or, heT, get?_foldl_set _ _ ok1,
      zip_get? hnl hvl he ht]
    rfl
  have key2 : ∀ i e, (onlyLoops g)[i]? = some e → ∃ t, Dict.get? eT' e = some t ∧ Drawn lprops (lrnd i) t := by
    intro i e he
    obtain ⟨t, ht, hd⟩ := hwd i (List.getElem?_eq_some_iff.mp he).1
    refine ⟨t, ?_, hd⟩
    rw [heT', get?_foldl_set _ _ ok2, zip_get? hll hwl he ht]
    rfl
  have hedges : ∀ e, e ∈ g.newEdgeType.adj.edges ↔ e ∈ g.adj.edges := by
    rintro ⟨i, j⟩
    rw [Adj.mem_edges hok, Adj.mem_edges (g := g.newEdgeType.adj) c1]
    show (g.adj.clearTypes.look i j).isSome ↔ _
    rw [c3]; cases g.adj.look i j <;> simp
  have hsplit : ∀ e, e ∈ g.adj.edges → ∃ t, Dict.get? eT' e = some t := by
    intro e he
    by_cases hl : e.1 = e.2
    · have : e ∈ onlyLoops g := by simp [onlyLoops, he, hl]
      obtain ⟨i, hi⟩ := List.mem_iff_getElem?.mp this
      obtain ⟨t, ht, -⟩ := key2 i e hi
      exact ⟨t, ht⟩
    · have : e ∈ nonLoops g := by simp [nonLoops, he, hl]
      obtain ⟨i, hi⟩ := List.mem_iff_getElem?.mp this
      obtain ⟨t, ht, -⟩ := key1 i e hi
      exact ⟨t, ht⟩
  obtain ⟨g', hg', hb, hk, hi, hl⟩ := setFrom_spec eT' g.newEdgeType.adj.edges (g := g.newEdgeType) (.prop hg)
    (fun e he => hsplit e ((hedges e).mp he)) (fun e he => by
      obtain ⟨i, j⟩ := e
      exact (Adj.mem_edges (g := g.newEdgeType.adj) c1).mp he)
  have hlook : ∀ i j, g'.adj.look i j = (g.adj.look i j).map fun x => { x with etype := Dict.get? eT' (i, j) } := by
    intro i j
    rw [hl]
    show (g.adj.clearTypes.look i j).map _ = _
    rw [c3]
    cases hx : g.adj.look i j with
    | none => rfl
    | some x =>
      have : (i, j) ∈ g.newEdgeType.adj.edges := by
        rw [hedges, Adj.mem_edges hok, hx]; rfl
      simp [this]
  have get : ∀ u v, (u, v) ∈ g.adj.edges → ∃ x, g.adj.look u v = some x := fun u v h =>
    Option.isSome_iff_exists.mp ((Adj.mem_edges hok).mp h)
  refine ⟨g', ?_, ⟨hb, hk.trans c2, hi, fun i j => ?_⟩, fun i u v h => ?_, fun i v h => ?_⟩
  · unfold setTypesRandom
    simp only [h1, h2, Bool.true_eq_false, if_false]
    unfold nonLoops at hvs
    unfold onlyLoops at hws
    rw [hvs]
    simp only
    rw [hws]
    exact hg'
  · rw [hlook]; cases g.adj.look i j <;> rfl
  · obtain ⟨t, ht, hd⟩ := key1 i _ h
    have hm : (u, v) ∈ g.adj.edges := (List.mem_filter.mp (List.mem_of_getElem? h)).1
    obtain ⟨x, hx⟩ := get u v hm
    exact ⟨{ x with etype := Dict.get? eT' (u, v) }, t, by rw [hlook, hx]; rfl, ht, hd⟩
  · obtain ⟨t, ht, hd⟩ := key2 i _ h
    have hm : (v, v) ∈ g.adj.edges := (List.mem_filter.mp (List.mem_of_getElem? h)).1
    obtain ⟨x, hx⟩ := get v v hm
    exact ⟨{ x with etype := Dict.get? eT' (v, v) }, t, by rw [hlook, hx]; rfl, ht, hd⟩

omit [EmptyCollection A] in
/-- C64. Proportions that do not sum to one, or a negative one, are a ValueError. -/
theorem C64_rejected {isOne sumOk : K → Bool} (hone : ∀ x, isOne x = true → 0 < x) {g : QGraph A}
    {props lprops : Dict Int K} {rnd lrnd : Nat → K} (hr : ∀ i, 0 ≤ rnd i ∧ rnd i < 1) (hlr : ∀ i, 0 ≤ lrnd i ∧ lrnd i < 1)
    (h : isOne (props.map Prod.snd).sum = false ∨ isOne (lprops.map Prod.snd).sum = false ∨
      sumOk (props.map Prod.snd).sum = false ∨ sumOk (lprops.map Prod.snd).sum = false ∨
      (∃ p ∈ props, p.2 < 0) ∨ ∃ p ∈ lprops, p.2 < 0) :
    setTypesRandom isOne sumOk g props lprops rnd lrnd = .error .valueError := by
  unfold setTypesRandom
  simp only
  by_cases h1 : isOne (props.map Prod.snd).sum = false
  · rw [if_pos h1]
  by_cases h2 : isOne (lprops.map Prod.snd).sum = false
  · rw [if_neg h1, if_pos h2]
  rw [if_neg h1, if_neg h2]
  have s1 := hone _ (by simpa using h1 : isOne (props.map Prod.snd).sum = true)
  have s2 := hone _ (by simpa using h2 : isOne (lprops.map Prod.snd).sum = true)
  by_cases h3 : (∃ p ∈ props, p.2 < 0) ∨ sumOk (props.map Prod.snd).sum = false
  · rw [(npChoice_spec s1 hr).1 h3]
  · obtain ⟨vs, hvs, -⟩ := (npChoice_spec (sumOk := sumOk)
      (m := (g.adj.edges.filter fun e => e.1 ≠ e.2).length) s1 hr).2 (by
        intro p hp; by_contra hlt; exact h3 (.inl ⟨p, hp, not_le.mp hlt⟩)) (by
        cases hs : sumOk (props.map Prod.snd).sum with
        | true => rfl
        | false => exact absurd (.inr hs) h3)
    rw [hvs]
    simp only
    have h4 : (∃ p ∈ lprops, p.2 < 0) ∨ sumOk (lprops.map Prod.snd).sum = false := by
      rcases h with h | h | h | h | h | h
      exacts [absurd h h1, absurd h h2, absurd (.inr h) h3, .inr h, absurd (.inl h) h3, .inl h]
    rw [(npChoice_spec s2 hlr).1 h4]

/-- C64. Every non-loop edge gets one of the types in `proportions` whose proportion is positive, every loop one of those in
`loop_proportions`. -/
theorem C64_types {isOne sumOk : K → Bool} (hone : ∀ x, isOne x = true → 0 < x) {g g' : QGraph A} (hg : Built g)
    {props lprops : Dict Int K} {rnd lrnd : Nat → K} (hr : ∀ i, 0 ≤ rnd i ∧ rnd i < 1) (hlr : ∀ i, 0 ≤ lrnd i ∧ lrnd i < 1)
    (h : setTypesRandom isOne sumOk g props lprops rnd lrnd = .ok g') :
    SameBut g g' ∧ ∀ u v, (u, v) ∈ g.adj.edges → ∃ x t p, g'.adj.look u v = some x ∧ x.etype = some t ∧
      (t, p) ∈ (if u = v then lprops else props) ∧ 0 < p := by
  have hrej := fun hh => C64_rejected (isOne := isOne) (sumOk := sumOk) hone (g := g) (props := props) (lprops := lprops) hr hlr hh
  rw [h] at hrej
  simp only [reduceCtorEq, imp_false, not_or, not_exists, not_and, not_lt, Bool.not_eq_false] at hrej
  obtain ⟨h1, h2, h3, h4, h5, h6⟩ := hrej
  obtain ⟨g2, hg2, hsame, ha, hb⟩ := C64_accepted (g := g) hone hg hr hlr h1 h2 h3 h4 h5 h6
  rw [h] at hg2
  simp only [Except.ok.injEq] at hg2
  subst hg2
  have pos : ∀ {props : Dict Int K} {u : K} {t : Int}, Drawn props u t → ∃ p, (t, p) ∈ props ∧ 0 < p := by
    rintro props u t ⟨k, p, hk, hle, hlt⟩
    refine ⟨p, List.mem_of_getElem? hk, ?_⟩
    have hlt' := lt_of_le_of_lt hle hlt
    unfold share at hlt'
    obtain ⟨hk1, hk2⟩ := List.getElem?_eq_some_iff.mp hk
    rw [List.take_succ_eq_append_getElem hk1, List.map_append, List.sum_append, hk2] at hlt'
    simpa using hlt'
  refine ⟨hsame, fun u v huv => ?_⟩
  by_cases hl : u = v
  · subst hl
    obtain ⟨i, hi⟩ := List.mem_iff_getElem?.mp (show (u, u) ∈ onlyLoops g by simp [onlyLoops, huv])
    obtain ⟨x, t, hx, ht, hd⟩ := hb i u hi
    obtain ⟨p, hp, hp0⟩ := pos hd
    exact ⟨x, t, p, hx, ht, by simpa using hp, hp0⟩
  · obtain ⟨i, hi⟩ := List.mem_iff_getElem?.mp (show (u, v) ∈ nonLoops g by simp [nonLoops, huv, hl])
    obtain ⟨x, t, hx, ht, hd⟩ := ha i u v hi
    obtain ⟨p, hp, hp0⟩ := pos hd
    exact ⟨x, t, p, hx, ht, by simpa [hl] using hp, hp0⟩

end

end Verif.GenSpec
