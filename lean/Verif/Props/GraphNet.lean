import Verif.GraphNet
import Verif.AnyNet
import Mathlib.Data.ENat.Basic
import Verif.Props.Graph

/-! # Properties of networks made from graphs: C54, C61, C66, C73 -/

namespace Verif

open GSpec

section

variable {A : Type*}

theorem indices_some {g : QGraph A} : ∀ {es : List (Nat × Nat)} {ks : List Nat}, g.indices es = some ks ↔
    List.Forall₂ (fun e k => Dict.get? g.index e = some k) es ks
  | [], ks => by
    simp only [QGraph.indices, Option.some.injEq, List.forall₂_nil_left_iff]
    exact eq_comm
  | e :: es, ks => by
    simp only [QGraph.indices]
    rw [List.forall₂_cons_left_iff]
    constructor
    · intro h
      split at h
      · rename_i k ks' h1 h2
        simp only [Option.some.injEq] at h
        exact ⟨k, ks', h1, indices_some.mp h2, h.symm⟩
      · simp at h
    · rintro ⟨k, ks', h1, h2, rfl⟩
      rw [h1, indices_some.mpr h2]

theorem indices_none {g : QGraph A} : ∀ {es : List (Nat × Nat)}, g.indices es = none ↔
    ∃ e ∈ es, Dict.get? g.index e = none
  | [] => by simp [QGraph.indices]
  | e :: es => by
    have ih := indices_none (g := g) (es := es)
    simp only [QGraph.indices, List.mem_cons, exists_eq_or_imp, ← ih]
    cases h1 : Dict.get? g.index e <;> cases h2 : g.indices es <;> simp

theorem indices_mem {g : QGraph A} {es : List (Nat × Nat)} {ks : List Nat} (h : g.indices es = some ks) (k : Nat) :
    k ∈ ks ↔ ∃ e ∈ es, Dict.get? g.index e = some k := by
  have h' := indices_some.mp h
  clear h
  induction h' with
  | nil => simp
  | cons h1 _ ih =>
    simp only [List.mem_cons, ih, exists_eq_or_imp, h1, Option.some.injEq]
    exact or_congr_left eq_comm

/-! ## C54 -/

/-- The edge types asked for. -/
def GSpec.Asked : TypeSel → Int → Prop
  | .none, _ => False
  | .one t, x => x = t
  | .many ts, x => x ∈ ts

/-- C54. A number or list of numbers is used as it is. -/
theorem C54_by_number (g : QGraph A) (es : EdgeSel) (ts : TypeSel) (k : Nat) (ks : List Nat) :
    g.getQueues (.one k) es ts = .ok [k] ∧ g.getQueues (.many ks) es ts = .ok ks := ⟨rfl, rfl⟩

/-- C54. An edge selects the queue on this edge; a pair that is not an edge is a KeyError. -/
theorem C54_by_edge [EmptyCollection A] {g : QGraph A} (hg : Built g) (ts : TypeSel) (u v : Nat) :
    ((u, v) ∈ g.adj.edges → ∃ k, Dict.get? g.index (u, v) = some k ∧ g.getQueues .none (.pair u v) ts = .ok [k]) ∧
    ((u, v) ∉ g.adj.edges → g.getQueues .none (.pair u v) ts = .error .keyError) := by
  obtain ⟨h1, -⟩ := C57_edge_index hg
  constructor
  · intro h
    obtain ⟨k, hk⟩ := (h1 _).mpr h
    exact ⟨k, hk, by simp [QGraph.getQueues, hk]⟩
  · intro h
    cases hk : Dict.get? g.index (u, v) with
    | some k => exact absurd ((h1 _).mp ⟨k, hk⟩) h
    | none => simp [QGraph.getQueues, hk]

/-- C54. A list of edges selects the queues on these edges, in this order; if one is not an edge there is a
KeyError. -/
theorem C54_by_edges [EmptyCollection A] {g : QGraph A} (hg : Built g) (ts : TypeSel) {es : List (Nat × Nat)}
    (hne : es ≠ []) :
    ((∀ e ∈ es, e ∈ g.adj.edges) → ∃ ks, g.getQueues .none (.list es) ts = .ok ks ∧
      List.Forall₂ (fun e k => Dict.get? g.index e = some k) es ks) ∧
    ((∃ e ∈ es, e ∉ g.adj.edges) → g.getQueues .none (.list es) ts = .error .keyError) := by
  obtain ⟨h1, -⟩ := C57_edge_index hg
  have hq : g.getQueues .none (.list es) ts =
      match g.indices es with | some ks => .ok ks | none => .error .keyError := by
    cases es with
    | nil => exact absurd rfl hne
    | cons e es => rfl
  rw [hq]
  constructor
  · intro h
    cases hi : g.indices es with
    | some ks => exact ⟨ks, rfl, indices_some.mp hi⟩
    | none =>
      obtain ⟨e, he, hn⟩ := indices_none.mp hi
      obtain ⟨k, hk⟩ := (h1 e).mpr (h e he)
      rw [hk] at hn; simp at hn
  · rintro ⟨e, he, hn⟩
    have : g.indices es = none := by
      rw [indices_none]
      refine ⟨e, he, ?_⟩
      cases hk : Dict.get? g.index e with
      | none => rfl
      | some k => exact absurd ((h1 e).mp ⟨k, hk⟩) hn
    rw [this]

/-- C54. Edge types select exactly the queues on edges with one of these types, each once. -/
theorem C54_by_type [EmptyCollection A] {g : QGraph A} (hg : Built g) {ts : TypeSel} (hts : ts ≠ .none) :
    ∃ ks, g.getQueues .none .none ts = .ok ks ∧ ks.Nodup ∧
      ∀ k, k ∈ ks ↔ ∃ u v x t, g.adj.look u v = some x ∧ x.etype = some t ∧ Asked ts t ∧
        Dict.get? g.index (u, v) = some k := by
  obtain ⟨h1, -, h3, -⟩ := C57_edge_index hg
  have hok := (Numbered.of_built hg).ok
  have key : ∀ l : List Int, ∃ ks, g.ofTypes l = .ok ks ∧ ks.Nodup ∧
      ∀ k, k ∈ ks ↔ ∃ u v x t, g.adj.look u v = some x ∧ x.etype = some t ∧ t ∈ l ∧
        Dict.get? g.index (u, v) = some k := by
    intro l
    unfold QGraph.ofTypes
    generalize hf : (fun e : Nat × Nat => match g.adj.look e.1 e.2 with
      | some ⟨some t, _⟩ => decide (t ∈ l) | _ => false) = f
    cases hi : g.indices (g.adj.edges.filter f) with
    | none =>
      exfalso
      obtain ⟨e, he, hn⟩ := indices_none.mp hi
      obtain ⟨k, hk⟩ := (h1 e).mpr (List.mem_filter.mp he).1
      rw [hk] at hn; simp at hn
    | some ks =>
      refine ⟨ks, rfl, ?_, fun k => ?_⟩
      · have hnd : (g.adj.edges.filter f).Nodup := (Adj.edges_nodup hok).filter _
        have hfa := indices_some.mp hi
        generalize g.adj.edges.filter f = es at hnd hfa
        clear hi
        induction hfa with
        | nil => simp
        | cons hh ht ih =>
          rename_i e k es ks
          rw [List.nodup_cons] at hnd ⊢
          refine ⟨fun hm => ?_, ih hnd.2⟩
          obtain ⟨e', he', hk'⟩ := (indices_mem (indices_some.mpr ht) k).mp hm
          exact hnd.1 (h3 e e' k hh hk' ▸ he')
      · rw [indices_mem hi]
        constructor
        · rintro ⟨⟨u, v⟩, he, hk⟩
          rw [List.mem_filter, ← hf] at he
          obtain ⟨_, he⟩ := he
          simp only at he
          split at he
          · rename_i t r hl
            exact ⟨u, v, _, t, hl, rfl, by simpa using he, hk⟩
          · simp at he
        · rintro ⟨u, v, ⟨et, r⟩, t, hl, ht, hm, hk⟩
          simp only at ht
          subst ht
          refine ⟨(u, v), ?_, hk⟩
          rw [List.mem_filter, ← hf]
          refine ⟨(Adj.mem_edges hok).mpr (by rw [hl]; rfl), ?_⟩
          simp [hl, hm]
  cases ts with
  | none => exact absurd rfl hts
  | one t =>
    obtain ⟨ks, h, hn, hm⟩ := key [t]
    refine ⟨ks, h, hn, fun k => ?_⟩
    rw [hm]; simp only [List.mem_singleton, Asked]
  | many ts => exact key ts

/-- C54. Nothing given selects all queues. -/
theorem C54_all (g : QGraph A) : g.getQueues .none .none .none = .ok (List.range g.adj.edges.length) := rfl

/-- C54. An empty list or tuple of edges is not "no edges" but an IndexError. -/
theorem C54_no_edges (g : QGraph A) (ts : TypeSel) :
    g.getQueues .none (.list []) ts = .error .indexError ∧ g.getQueues .none (.tuple []) ts = .error .indexError := ⟨rfl, rfl⟩

/-- C54 fails for edges given as a tuple of edges, or as a list with a member that is not a pair: all queues are
selected. -/
theorem C54_tuple_of_edges (g : QGraph A) (ts : TypeSel) (e : Nat × Nat) (es : List (Nat × Nat)) :
    g.getQueues .none (.tuple (e :: es)) ts = .ok (List.range g.adj.edges.length) ∧
    g.getQueues .none .ragged ts = .ok (List.range g.adj.edges.length) := ⟨rfl, rfl⟩

/-! ## C66 -/

variable {C B : Type*}

theorem get?_complete {V : Type*} (given dflt : Dict Int V) (k : Int) :
    Dict.get? (complete given dflt) k = (Dict.get? given k).or (Dict.get? dflt k) := by
  unfold complete
  induction dflt generalizing given with
  | nil => simp [Dict.get?]
  | cons p dflt ih =>
    obtain ⟨i, x⟩ := p
    rw [List.foldl_cons, ih]
    simp only [Dict.get?]
    by_cases hs : (Dict.get? given i).isSome
    · simp only [hs, if_true]
      by_cases hi : i = k
      · subst hi
        obtain ⟨y, hy⟩ := Option.isSome_iff_exists.mp hs
        simp [hy]
      · simp [hi]
    · simp only [hs, Bool.false_eq_true, if_false, Dict.get?_set]
      by_cases hi : i = k
      · subst hi
        have : Dict.get? given i = none := by simpa using hs
        simp [this]
      · simp [hi, Ne.symm hi]

/-- The number of servers written for the first edge of a type. -/
def upd (cap : Option (Nat → Option Nat)) (e : Nat × Nat) (a : QArgs B) : QArgs B :=
  match cap, a.servers with
  | some cap, none => { a with servers := some (max ((cap e.2).getD 0) 1) }
  | _, _ => a

theorem upd_upd (cap : Option (Nat → Option Nat)) (e e' : Nat × Nat) (a : QArgs B) :
    upd cap e' (upd cap e a) = upd cap e a := by
  unfold upd
  rcases cap with _ | cap <;> rcases a with ⟨_ | s, r⟩ <;> rfl

/-- The type of an edge. -/
def typeAt (g : QGraph A) (e : Nat × Nat) : Option Int := (g.adj.look e.1 e.2).bind (·.etype)

/-- The first edge of a type in the order of `g.edges()`. -/
def firstOf (g : QGraph A) (es : List (Nat × Nat)) (et : Int) : Option (Nat × Nat) :=
  es.find? fun e => typeAt g e = some et

theorem setQueues_spec [EmptyCollection A] {g : QGraph A} (hg : Numbered g) {cls : Dict Int C}
    {cap : Option (Nat → Option Nat)} {args0 : Dict Int (QArgs B)} :
    ∀ (es done : List (Nat × Nat)) (args : Dict Int (QArgs B)) (qs res : List (Option (QSpec C B))),
    done ++ es = g.adj.edges → qs.length = g.nE →
    (∀ et, Dict.get? args et = (Dict.get? args0 et).map fun a =>
      match firstOf g done et with | some e => upd cap e a | none => a) →
    (∀ e ∈ done, ∃ et k c a e1, typeAt g e = some et ∧ Dict.get? g.index e = some k ∧ Dict.get? cls et = some c ∧
      Dict.get? args0 et = some a ∧ firstOf g g.adj.edges et = some e1 ∧
      qs[k]? = some (some ⟨c, ⟨e.1, e.2, k, et⟩, upd cap e1 a⟩)) →
    setQueues g cls cap es args qs = .ok res →
    res.length = g.nE ∧
    (∀ e ∈ g.adj.edges, ∃ et k c a e1, typeAt g e = some et ∧ Dict.get? g.index e = some k ∧
      Dict.get? cls et = some c ∧ Dict.get? args0 et = some a ∧ firstOf g g.adj.edges et = some e1 ∧
      res[k]? = some (some ⟨c, ⟨e.1, e.2, k, et⟩, upd cap e1 a⟩)) := by
  intro es
  induction es with
  | nil =>
    intro done args qs res hd hl _ hq h
    simp only [setQueues, Except.ok.injEq] at h
    subst h
    rw [List.append_nil] at hd
    exact ⟨hl, fun e he => hq e (hd ▸ he)⟩
  | cons e es ih =>
    intro done args qs res hd hl ha hq h
    simp only [setQueues] at h
    cases hs : setQueue g cls cap e args qs with
    | error err => rw [hs] at h; simp at h
    | ok r =>
      obtain ⟨args', qs'⟩ := r
      rw [hs] at h
      simp only at h
      unfold setQueue at hs
      split at hs
      swap
      · simp at hs
      rename_i et k het hk
      split at hs
      swap
      · simp at hs
      rename_i a c hga hgc
      simp only [Except.ok.injEq, Prod.mk.injEq] at hs
      obtain ⟨hs1, hs2⟩ := hs
      have hs1 : Dict.set args et (upd cap e a) = args' := hs1
      have hs2 : qs.set k (some ⟨c, ⟨e.1, e.2, k, et⟩, upd cap e a⟩) = qs' := hs2
      have hte : typeAt g e = some et := het
      have hklt : k < g.nE := hg.lt e k hk
      -- the arguments used
      have hfd : ∀ t, firstOf g (done ++ [e]) t = (firstOf g done t).or (if typeAt g e = some t then some e else none) := by
        intro t
        unfold firstOf
        rw [List.find?_append]
        simp only [List.find?_cons, List.find?_nil]
        by_cases ht : typeAt g e = some t <;> simp [ht]
      have ha' := ha et
      rw [hga] at ha'
      obtain ⟨a0, ha0, haa⟩ := Option.map_eq_some_iff.mp ha'.symm
      have hargs : ∀ t, Dict.get? args' t = (Dict.get? args0 t).map fun a =>
          match firstOf g (done ++ [e]) t with | some e => upd cap e a | none => a := by
        intro t
        rw [← hs1, Dict.get?_set, hfd]
        by_cases ht : t = et
        · subst ht
          rw [if_pos rfl, ha0]
          simp only [Option.map_some, Option.some.injEq, hte, if_true]
          rw [← haa]
          cases hf : firstOf g done t with
          | none => simp
          | some e1 => simp [upd_upd]
        · rw [if_neg ht, ha t, hte]
          have : ¬ (some et = some t) := fun h' => ht (by simpa using h'.symm)
          simp [this]
      have hfirst : ∃ e1, firstOf g g.adj.edges et = some e1 ∧ upd cap e a = upd cap e1 a0 := by
        have hall : firstOf g g.adj.edges et = (firstOf g (done ++ [e]) et).or (firstOf g es et) := by
          unfold firstOf
          rw [← List.find?_append, ← hd]
          simp
        rw [hall, hfd, hte, if_pos rfl, ← haa]
        cases hf : firstOf g done et with
        | none => exact ⟨e, by simp, rfl⟩
        | some e1 => exact ⟨e1, by simp, upd_upd ..⟩
      obtain ⟨e1, hf1, hu1⟩ := hfirst
      refine ih (done ++ [e]) args' qs' res (by rw [← hd]; simp) ?_ hargs ?_ h
      · rw [← hs2, List.length_set, hl]
      · intro e' he'
        by_cases hee : e' = e
        · subst hee
          refine ⟨et, k, c, a0, e1, hte, hk, hgc, ha0, hf1, ?_⟩
          rw [← hs2, hu1, List.getElem?_set_self (by rw [hl]; exact hklt)]
        · have hin : e' ∈ done := by
            rcases List.mem_append.mp he' with h' | h'
            · exact h'
            · exact absurd (List.mem_singleton.mp h') hee
          obtain ⟨et', k', c', a', e1', h1, h2, h3, h4, h5, h6⟩ := hq e' hin
          refine ⟨et', k', c', a', e1', h1, h2, h3, h4, h5, ?_⟩
          have hkk : k ≠ k' := by
            rintro rfl; exact hee (hg.inj e' e k h2 hk)
          rw [← hs2, List.getElem?_set_ne hkk]; exact h6

theorem setQueues_ok [EmptyCollection A] {g : QGraph A} {cls : Dict Int C}
    {cap : Option (Nat → Option Nat)} :
    ∀ (es : List (Nat × Nat)) (args : Dict Int (QArgs B)) (qs : List (Option (QSpec C B))),
    (∀ e ∈ es, ∃ k, Dict.get? g.index e = some k) →
    ((∃ res, setQueues g cls cap es args qs = .ok res) ↔
      ∀ e ∈ es, ∃ et, typeAt g e = some et ∧ (Dict.get? cls et).isSome ∧ (Dict.get? args et).isSome) := by
  intro es
  induction es with
  | nil => intro args qs _; simp [setQueues]
  | cons e es ih =>
    intro args qs hidx
    obtain ⟨k, hk⟩ := hidx e (by simp)
    simp only [setQueues]
    by_cases hgood : ∃ et, typeAt g e = some et ∧ (Dict.get? cls et).isSome ∧ (Dict.get? args et).isSome
    · obtain ⟨et, hte, hc, ha⟩ := hgood
      obtain ⟨c, hc'⟩ := Option.isSome_iff_exists.mp hc
      obtain ⟨a, ha'⟩ := Option.isSome_iff_exists.mp ha
      have hs : setQueue g cls cap e args qs =
          .ok (Dict.set args et (upd cap e a), qs.set k (some ⟨c, ⟨e.1, e.2, k, et⟩, upd cap e a⟩)) := by
        unfold setQueue
        have : (g.adj.look e.1 e.2).bind (·.etype) = some et := hte
        simp only [this, hk, hc', ha']
        rfl
      rw [hs]
      simp only
      rw [ih _ _ (fun e' he' => hidx e' (by simp [he']))]
      have hset : ∀ t, (Dict.get? (Dict.set args et (upd cap e a)) t).isSome ↔ (Dict.get? args t).isSome := by
        intro t
        rw [Dict.get?_set]
        by_cases ht : t = et
        · subst ht; simp [ha]
        · simp [ht]
      simp only [hset, List.mem_cons, forall_eq_or_imp]
      exact ⟨fun h => ⟨⟨et, hte, hc, ha⟩, h⟩, fun h => h.2⟩
    · have hs : setQueue g cls cap e args qs = .error .keyError := by
        unfold setQueue
        cases hte : (g.adj.look e.1 e.2).bind (·.etype) with
        | none => rfl
        | some et =>
          simp only [hk]
          cases hc : Dict.get? cls et with
          | none => cases Dict.get? args et <;> rfl
          | some c =>
            cases ha : Dict.get? args et with
            | none => rfl
            | some a => exact absurd ⟨et, hte, by simp [hc], by simp [ha]⟩ hgood
      rw [hs]
      simp only [List.mem_cons, forall_eq_or_imp, hgood, false_and, iff_false]
      simp

/-- The graph a network is built on. -/
theorem prepare_built [EmptyCollection A] {g : QGraph A} (hg : Built g) {cap cap' : Option (Nat → Option Nat)}
    {adjust : Bool} {g' : QGraph A} (h : prepare g cap adjust = .ok (g', cap')) :
    Built g' ∧ (adjust = true → cap' = none ∧ ∃ a, Adj.adjacency2graph (.dicts g.adj) .none true = .ok a ∧ g' = QGraph.ofAdj a) ∧
    (adjust = false → cap' = cap ∧ g' = g) := by
  unfold prepare at h
  cases adjust with
  | false =>
    simp only [Bool.false_eq_true, if_false, Except.ok.injEq, Prod.mk.injEq] at h
    obtain ⟨rfl, rfl⟩ := h
    exact ⟨hg, by simp, fun _ => ⟨rfl, rfl⟩⟩
  | true =>
    simp only [if_true] at h
    split at h
    · simp at h
    · rename_i a ha
      simp only [Except.ok.injEq, Prod.mk.injEq] at h
      obtain ⟨rfl, rfl⟩ := h
      have hok : a.Ok := adjacency2graph_ok (a := .dicts g.adj) (ty := .none) (Numbered.of_built hg).ok trivial ha
      exact ⟨.new hok, fun _ => ⟨rfl, a, ha, rfl⟩, by simp⟩

theorem makeNetwork_parts [EmptyCollection A] [EmptyCollection B] {g : QGraph A} {given dflt : Dict Int C}
    {args : Dict Int (QArgs B)} {cap : Option (Nat → Option Nat)} {adjust : Bool} {m : Made A C B}
    (h : makeNetwork g given dflt args cap adjust = .ok m) :
    ∃ cap', prepare g cap adjust = .ok (m.graph, cap') ∧ makeQueues m.graph given dflt args cap' = .ok m.queues ∧
      m.graph.allOut = .ok m.out := by
  unfold makeNetwork at h
  split at h
  · simp at h
  · rename_i g' cap' h1
    split at h
    · simp at h
    · rename_i qs h2
      split at h
      · simp at h
      · rename_i out h3
        simp only [Except.ok.injEq] at h
        subst h
        exact ⟨cap', h1, h2, h3⟩

/-- C66. In a network every edge has a type; at its number in the list of queues there is one queue, of the class
given for this type or else the default one, told this edge, number and type, with the arguments given for
this type; and there is nothing else in the list. -/
theorem C66_queues [EmptyCollection A] [EmptyCollection B] {g : QGraph A} (hg : Built g) {given dflt : Dict Int C}
    {args : Dict Int (QArgs B)} {cap : Option (Nat → Option Nat)} {adjust : Bool} {m : Made A C B}
    (h : makeNetwork g given dflt args cap adjust = .ok m) :
    m.queues.length = m.graph.adj.edges.length ∧
    (∀ u v x, m.graph.adj.look u v = some x → ∃ et k q,
      x.etype = some et ∧ Dict.get? m.graph.index (u, v) = some k ∧ m.queues[k]? = some (some q) ∧
      q.edge = ⟨u, v, k, et⟩ ∧
      (Dict.get? given et = some q.cls ∨ (Dict.get? given et = none ∧ Dict.get? dflt et = some q.cls)) ∧
      (∀ a, Dict.get? args et = some a → q.args.rest = a.rest) ∧
      (Dict.get? args et = none → q.args.rest = ∅)) ∧
    ∀ k < m.graph.adj.edges.length, ∃ q, m.queues[k]? = some (some q) ∧ q.edge.idx = k ∧
      Dict.get? m.graph.index (q.edge.src, q.edge.tgt) = some k := by
  obtain ⟨cap', h1, h2, h3⟩ := makeNetwork_parts h
  have hn := Numbered.of_built (prepare_built hg h1).1
  unfold makeQueues at h2
  simp only at h2
  obtain ⟨hl, hq⟩ := setQueues_spec hn _ [] _ _ _ rfl (by simp [hn.count]) (fun et => by
    cases Dict.get? (complete args ((complete given dflt).map fun p => (p.1, ⟨none, ∅⟩))) et <;> simp [firstOf])
    (by simp) h2
  have key : ∀ u v x, m.graph.adj.look u v = some x → ∃ et k q,
      x.etype = some et ∧ Dict.get? m.graph.index (u, v) = some k ∧ m.queues[k]? = some (some q) ∧
      q.edge = ⟨u, v, k, et⟩ ∧
      (Dict.get? given et = some q.cls ∨ (Dict.get? given et = none ∧ Dict.get? dflt et = some q.cls)) ∧
      (∀ a, Dict.get? args et = some a → q.args.rest = a.rest) ∧
      (Dict.get? args et = none → q.args.rest = ∅) := by
    intro u v x hx
    obtain ⟨et, k, c, a, e1, q1, q2, q3, q4, -, q6⟩ := hq (u, v) ((Adj.mem_edges hn.ok).mpr (by rw [hx]; rfl))
    refine ⟨et, k, _, ?_, q2, q6, rfl, ?_, ?_, ?_⟩
    · simpa [typeAt, hx] using q1
    · rw [get?_complete] at q3
      cases hgi : Dict.get? given et with
      | some c' => rw [hgi] at q3; simp only [Option.some_or] at q3; exact Or.inl q3
      | none => rw [hgi] at q3; simp only [Option.none_or] at q3; exact Or.inr ⟨rfl, q3⟩
    · intro a' ha'
      rw [get?_complete, ha'] at q4
      simp only [Option.some_or, Option.some.injEq] at q4
      subst q4
      unfold upd; split <;> rfl
    · intro hno
      rw [get?_complete, hno] at q4
      simp only [Option.none_or] at q4
      rw [Dict.get?_map (complete given dflt) (fun _ _ => (⟨none, ∅⟩ : QArgs B))] at q4
      obtain ⟨_, _, rfl⟩ := Option.map_eq_some_iff.mp q4
      unfold upd; split <;> rfl
  refine ⟨hl.trans hn.count, key, fun k hk => ?_⟩
  obtain ⟨⟨u, v⟩, he⟩ := hn.onto k (hn.count ▸ hk)
  have hm : (u, v) ∈ m.graph.adj.edges := by rw [← hn.edges, he]; rfl
  obtain ⟨x, hx⟩ := Option.isSome_iff_exists.mp ((Adj.mem_edges hn.ok).mp hm)
  obtain ⟨et, k', q, _, q2, q3, q4, _⟩ := key u v x hx
  rw [he] at q2
  simp only [Option.some.injEq] at q2
  subst q2
  exact ⟨q, q3, by rw [q4], by rw [q4]; exact he⟩

/-- C66, number of servers: a number given for the type is used. If none is given, the queue gets none
(its class's default), except without `adjust_graph` on a graph with vertex property `cap`: then all queues of this
type get the capacity (at least 1) of the target of the first edge of this type. -/
theorem C66_servers [EmptyCollection A] [EmptyCollection B] {g : QGraph A} (hg : Built g) {given dflt : Dict Int C}
    {args : Dict Int (QArgs B)} {cap : Option (Nat → Option Nat)} {adjust : Bool} {m : Made A C B}
    (h : makeNetwork g given dflt args cap adjust = .ok m) {k : Nat} {q : QSpec C B}
    (hk : m.queues[k]? = some (some q)) :
    (∀ a n, Dict.get? args q.edge.etype = some a → a.servers = some n → q.args.servers = some n) ∧
    ((∀ a, Dict.get? args q.edge.etype = some a → a.servers = none) →
      (adjust = true ∨ cap = none → q.args.servers = none) ∧
      ∀ f, adjust = false → cap = some f → ∃ e, firstOf m.graph m.graph.adj.edges q.edge.etype = some e ∧
        q.args.servers = some (max ((f e.2).getD 0) 1)) := by
  obtain ⟨cap', h1, h2, h3⟩ := makeNetwork_parts h
  obtain ⟨hb, hadj, hraw⟩ := prepare_built hg h1
  have hn := Numbered.of_built hb
  unfold makeQueues at h2
  simp only at h2
  obtain ⟨hl, hq⟩ := setQueues_spec hn _ [] _ _ _ rfl (by simp [hn.count]) (fun et => by
    cases Dict.get? (complete args ((complete given dflt).map fun p => (p.1, ⟨none, ∅⟩))) et <;> simp [firstOf])
    (by simp) h2
  have hklt : k < m.graph.nE := by rw [← hl]; exact (List.getElem?_eq_some_iff.mp hk).1
  obtain ⟨e, he⟩ := hn.onto k hklt
  obtain ⟨et, k', c, a, e1, q1, q2, q3, q4, q5, q6⟩ := hq e (by rw [← hn.edges, he]; rfl)
  rw [he] at q2
  simp only [Option.some.injEq] at q2
  subst q2
  rw [hk] at q6
  simp only [Option.some.injEq] at q6
  subst q6
  simp only
  rw [get?_complete, Dict.get?_map (complete given dflt) (fun _ _ => (⟨none, ∅⟩ : QArgs B))] at q4
  refine ⟨fun a' n ha' hn' => ?_, fun hno => ?_⟩
  · rw [ha'] at q4
    simp only [Option.some_or, Option.some.injEq] at q4
    subst q4
    unfold upd
    rw [hn']
    cases cap' <;> simp [hn']
  · have has : a.servers = none := by
      cases hga : Dict.get? args et with
      | some a' =>
        rw [hga] at q4
        simp only [Option.some_or, Option.some.injEq] at q4
        subst q4; exact hno _ hga
      | none =>
        rw [hga] at q4
        simp only [Option.none_or] at q4
        obtain ⟨_, _, rfl⟩ := Option.map_eq_some_iff.mp q4
        rfl
    constructor
    · intro hcase
      have : cap' = none := by
        cases adjust with
        | true => exact (hadj rfl).1
        | false =>
          rw [(hraw rfl).1]
          exact hcase.resolve_left (by simp)
      subst this
      exact has
    · intro f hf hc
      have : cap' = some f := by rw [(hraw hf).1, hc]
      subst this
      refine ⟨e1, q5, ?_⟩
      unfold upd
      rw [has]

theorem makeQueues_ok [EmptyCollection A] [EmptyCollection B] {g' : QGraph A} (hn : Numbered g') {given dflt : Dict Int C}
    {args : Dict Int (QArgs B)} {cap' : Option (Nat → Option Nat)} :
    (∃ qs, makeQueues g' given dflt args cap' = .ok qs) ↔
      ∀ u v x, g'.adj.look u v = some x → ∃ et, x.etype = some et ∧
        (et ∈ Dict.keys given ∨ et ∈ Dict.keys dflt) := by
  unfold makeQueues
  simp only
  rw [setQueues_ok _ _ _ (fun e he => Option.isSome_iff_exists.mp ((hn.edges e).mpr he))]
  have hor : ∀ et, (Dict.get? (complete given dflt) et).isSome ↔ et ∈ Dict.keys given ∨ et ∈ Dict.keys dflt := by
    intro et
    rw [get?_complete, ← Dict.get?_isSome, ← Dict.get?_isSome]
    cases Dict.get? given et <;> simp
  have harg : ∀ et, (Dict.get? (complete given dflt) et).isSome →
      (Dict.get? (complete args ((complete given dflt).map fun p => (p.1, (⟨none, ∅⟩ : QArgs B)))) et).isSome := by
    intro et het
    rw [get?_complete, Dict.get?_map (complete given dflt) (fun _ _ => (⟨none, ∅⟩ : QArgs B))]
    obtain ⟨c, hc⟩ := Option.isSome_iff_exists.mp het
    rw [hc]
    cases Dict.get? args et <;> simp
  constructor
  · intro h u v x hx
    obtain ⟨et, h1, h2, _⟩ := h (u, v) ((Adj.mem_edges hn.ok).mpr (by rw [hx]; rfl))
    exact ⟨et, by simpa [typeAt, hx] using h1, (hor et).mp h2⟩
  · rintro h ⟨u, v⟩ he
    obtain ⟨x, hx⟩ := Option.isSome_iff_exists.mp ((Adj.mem_edges hn.ok).mp he)
    obtain ⟨et, h1, h2⟩ := h u v x hx
    exact ⟨et, by simp [typeAt, hx, h1], (hor et).mpr h2, harg et ((hor et).mpr h2)⟩

theorem setQueues_error {g : QGraph A} {cls : Dict Int C} {cap : Option (Nat → Option Nat)} {es : List (Nat × Nat)} :
    ∀ {args : Dict Int (QArgs B)} {qs : List (Option (QSpec C B))} {e : Err},
      setQueues g cls cap es args qs = .error e → e = .keyError := by
  induction es with
  | nil => intro args qs e h; cases h
  | cons d es ih =>
    intro args qs e h
    unfold setQueues at h
    split at h
    · rename_i err he
      cases h
      unfold setQueue at he
      split at he
      · split at he
        · cases he
        · cases he; rfl
      · cases he; rfl
    · exact ih h

/-- C66: when a network can be made: the graph is not empty (with `adjust_graph`), each edge has a type with a class,
and the vertices are numbered below their number. -/
theorem C66_when_ok [EmptyCollection A] [EmptyCollection B] {g : QGraph A} (hg : Built g) {given dflt : Dict Int C}
    {args : Dict Int (QArgs B)} {cap cap' : Option (Nat → Option Nat)} {adjust : Bool} {g' : QGraph A}
    (hp : prepare g cap adjust = .ok (g', cap')) :
    (∃ m, makeNetwork g given dflt args cap adjust = .ok m) ↔
      (∀ u v x, g'.adj.look u v = some x → ∃ et, x.etype = some et ∧
        (et ∈ Dict.keys given ∨ et ∈ Dict.keys dflt)) ∧
      ∀ v ∈ Dict.keys g'.adj, v < g'.adj.length := by
  have hn := Numbered.of_built (prepare_built hg hp).1
  rw [← makeQueues_ok hn (args := args) (cap' := cap')]
  unfold makeNetwork QGraph.allOut
  rw [hp]
  simp only
  cases makeQueues g' given dflt args cap' with
  | error e => simp
  | ok qs =>
    simp only [Except.ok.injEq, exists_eq', true_and]
    by_cases hv : ∀ v ∈ Dict.keys g'.adj, v < g'.adj.length
    · rw [if_pos hv]
      simpa using hv
    · rw [if_neg hv]
      simpa using hv

/-- C66: how making a network fails: KeyError if some edge has no type with a class, and otherwise IndexError if some vertex is not
below the number of vertices. -/
theorem C66_errors [EmptyCollection A] [EmptyCollection B] {g : QGraph A} (hg : Built g) {given dflt : Dict Int C}
    {args : Dict Int (QArgs B)} {cap cap' : Option (Nat → Option Nat)} {adjust : Bool} {g' : QGraph A}
    (hp : prepare g cap adjust = .ok (g', cap')) :
    ((∃ u v x, g'.adj.look u v = some x ∧ ∀ et, x.etype = some et → et ∉ Dict.keys given ∧ et ∉ Dict.keys dflt) →
      makeNetwork g given dflt args cap adjust = .error .keyError) ∧
    ((∀ u v x, g'.adj.look u v = some x → ∃ et, x.etype = some et ∧ (et ∈ Dict.keys given ∨ et ∈ Dict.keys dflt)) →
      (∃ v ∈ Dict.keys g'.adj, g'.adj.length ≤ v) → makeNetwork g given dflt args cap adjust = .error .indexError) := by
  have hn := Numbered.of_built (prepare_built hg hp).1
  have hq := makeQueues_ok hn (args := args) (cap' := cap') (given := given) (dflt := dflt)
  unfold makeNetwork
  rw [hp]
  simp only
  refine ⟨?_, ?_⟩
  · rintro ⟨u, v, x, hx, hno⟩
    cases hm : makeQueues g' given dflt args cap' with
    | ok qs =>
      obtain ⟨et, h1, h2⟩ := hq.mp ⟨qs, hm⟩ u v x hx
      rcases h2 with h2 | h2
      · exact absurd h2 (hno et h1).1
      · exact absurd h2 (hno et h1).2
    | error e =>
      unfold makeQueues at hm
      rw [setQueues_error hm]
  · rintro hall ⟨v, hv, hlt⟩
    obtain ⟨qs, hm⟩ := hq.mpr hall
    rw [hm]
    simp only
    unfold QGraph.allOut
    rw [if_neg (fun h => absurd (h v hv) (by omega))]

/-! ## C61 -/

theorem drawEdges_get? {K : Type*} {g : Adj A} (hg : g.Ok) (col : Nat → Nat × Nat → K) (e : Nat × Nat) (k : Nat)
    (hk : g.edges[k]? = some e) : Dict.get? (drawEdges g col) e = some (col k e) := by
  have hok : Dict.Ok (drawEdges g col) := by
    unfold Dict.Ok Dict.keys drawEdges
    rw [List.map_map]
    have : (Prod.fst ∘ fun p : (Nat × Nat) × Nat => (p.1, col p.2 p.1)) = Prod.fst := rfl
    rw [this, List.zipIdx_map_fst]
    exact Adj.edges_nodup hg
  apply Dict.get?_of_mem hok
  unfold drawEdges
  exact List.mem_map.mpr ⟨(e, k), List.mem_zipIdx_iff_getElem?.mpr hk, rfl⟩

/-- C61, as far as it holds: every edge is drawn in the colour of the queue at its position in `g.edges()`. The
statement asks for the queue on the edge, i.e. the one at its `edge_index`. MISSING: that the two agree, which
fails for some graphs (`C61_wrong_colour`); `C61_right_iff` says for which. -/
theorem C61_colours_partial {K : Type*} {g : Adj A} (hg : g.Ok) (col : Nat → Nat × Nat → K) (e : Nat × Nat) :
    (∀ k, g.edges[k]? = some e → Dict.get? (drawEdges g col) e = some (col k e)) ∧
    (e ∈ g.edges ↔ ∃ c, Dict.get? (drawEdges g col) e = some c) := by
  refine ⟨fun k hk => drawEdges_get? hg col e k hk, fun he => ?_, ?_⟩
  · obtain ⟨k, hk⟩ := List.getElem?_of_mem he
    exact ⟨_, drawEdges_get? hg col e k hk⟩
  · rintro ⟨c, hc⟩
    have := Dict.mem_of_get? hc
    unfold drawEdges at this
    obtain ⟨⟨e', k⟩, hm, heq⟩ := List.mem_map.mp this
    simp only [Prod.mk.injEq] at heq
    rw [← heq.1]
    have h' := List.mem_zipIdx_iff_getElem?.mp hm
    exact List.mem_of_getElem? h'

/-- C61 holds, whatever the colours, exactly for the graphs whose `edges()` come in increasing order. -/
theorem C61_right_iff {g : Adj A} (hg : g.Ok) :
    (∀ (col : Nat → Nat × Nat → Nat) e k, Dict.get? (QGraph.ofAdj g).index e = some k →
      Dict.get? (drawEdges g col) e = some (col k e)) ↔ g.edges.Pairwise edgeLe := by
  have hn : (g.edges.insertionSort edgeLe).Nodup :=
    (List.perm_insertionSort edgeLe g.edges).nodup_iff.mpr (Adj.edges_nodup hg)
  constructor
  · intro h
    have heq : g.edges = g.edges.insertionSort edgeLe := by
      apply List.ext_getElem?
      intro k
      cases hk : (g.edges.insertionSort edgeLe)[k]? with
      | none =>
        rw [List.getElem?_eq_none_iff] at hk ⊢
        rw [List.length_insertionSort] at hk
        exact hk
      | some e =>
        have h1 := h (fun k _ => k) e k ((zipIdx_get? hn e k).mpr hk)
        have he : e ∈ g.edges := by
          rw [← List.mem_insertionSort edgeLe]; exact List.mem_of_getElem? hk
        obtain ⟨k', hk'⟩ := List.getElem?_of_mem he
        rw [drawEdges_get? hg _ e k' hk'] at h1
        simp only [Option.some.injEq] at h1
        subst h1; exact hk'
    rw [heq]
    exact List.pairwise_insertionSort edgeLe g.edges
  · intro hs col e k hk
    have heq : g.edges.insertionSort edgeLe = g.edges := List.Pairwise.insertionSort_eq hs
    have h' := (zipIdx_get? hn e k).mp hk
    rw [heq] at h'
    exact drawEdges_get? hg col e k h'

/-- C61 fails (finding F12): in the graph of the dict `{1: [0], 0: [1]}` each of the two edges is drawn in the
colour of the queue on the other one. -/
theorem C61_wrong_colour : ∃ g : Adj Unit, g.Ok ∧ Adj.adjacency2graph (.lists [(1, [0]), (0, [1])]) .none true = .ok g ∧
    Dict.get? (QGraph.ofAdj g).index (0, 1) = some 0 ∧
    Dict.get? (drawEdges g fun k _ => k) (0, 1) = some 1 ∧
    Dict.get? (QGraph.ofAdj g).index (1, 0) = some 1 ∧
    Dict.get? (drawEdges g fun k _ => k) (1, 0) = some 0 :=
  ⟨_, adjacency2graph_ok (a := .lists [(1, [0]), (0, [1])]) (ty := .none) (by simp [ArgOk]) trivial rfl, rfl,
    by decide +kernel, by decide +kernel, by decide +kernel, by decide +kernel⟩

/-! ## C73: the networks made satisfy the hypotheses of the network theorems -/

theorem edges_from {g : Adj A} (hg : g.Ok) (v : Nat) (e : Nat × Nat) :
    e ∈ (((Dict.get? g v).getD []).map fun q => (v, q.1)) ↔ e.1 = v ∧ e ∈ g.edges := by
  obtain ⟨i, j⟩ := e
  rw [Adj.mem_edges hg]
  unfold Adj.look
  constructor
  · intro h
    obtain ⟨q, hq, he⟩ := List.mem_map.mp h
    simp only [Prod.mk.injEq] at he
    obtain ⟨rfl, rfl⟩ := he
    refine ⟨rfl, ?_⟩
    cases hd : Dict.get? g v with
    | none => rw [hd] at hq; simp at hq
    | some d =>
      rw [hd] at hq
      simp only [Option.getD_some] at hq
      simp only [Option.bind_some]
      rw [Dict.get?_isSome]
      exact List.mem_map.mpr ⟨q, hq, rfl⟩
  · rintro ⟨rfl, h⟩
    cases hd : Dict.get? g i with
    | none => rw [hd] at h; simp at h
    | some d =>
      rw [hd] at h
      simp only [Option.bind_some] at h
      rw [Dict.get?_isSome] at h
      obtain ⟨q, hq, rfl⟩ := List.mem_map.mp h
      exact List.mem_map.mpr ⟨q, by simpa using hq, rfl⟩

theorem outEdges_some {g : QGraph A} (hg : Numbered g) (v : Nat) : ∃ ks, g.outEdges v = some ks ∧
    List.Forall₂ (fun e k => Dict.get? g.index e = some k)
      ((((Dict.get? g.adj v).getD []).map fun q => (v, q.1)).insertionSort edgeLe) ks := by
  unfold QGraph.outEdges
  cases hi : g.indices ((((Dict.get? g.adj v).getD []).map fun q => (v, q.1)).insertionSort edgeLe) with
  | some ks => exact ⟨ks, rfl, indices_some.mp hi⟩
  | none =>
    exfalso
    obtain ⟨e, he, hn⟩ := indices_none.mp hi
    rw [List.mem_insertionSort, edges_from hg.ok] at he
    have := (hg.edges e).mpr he.2
    rw [hn] at this; simp at this

/-- C73. `out_edges[v]` lists the numbers of the edges out of `v`, by increasing target. -/
theorem C73_out_edges [EmptyCollection A] [EmptyCollection B] {g : QGraph A} (hg : Built g) {given dflt : Dict Int C}
    {args : Dict Int (QArgs B)} {cap : Option (Nat → Option Nat)} {adjust : Bool} {m : Made A C B}
    (h : makeNetwork g given dflt args cap adjust = .ok m) (v : Nat) :
    (∀ k, k ∈ m.out v ↔ ∃ w, (v, w) ∈ m.graph.adj.edges ∧ Dict.get? m.graph.index (v, w) = some k) ∧
    ∃ ws : List Nat, ws.Pairwise (· < ·) ∧
      List.Forall₂ (fun w k => Dict.get? m.graph.index (v, w) = some k) ws (m.out v) := by
  obtain ⟨cap', h1, h2, h3⟩ := makeNetwork_parts h
  have hn := Numbered.of_built (prepare_built hg h1).1
  have hout : m.out v = (m.graph.outEdges v).getD [] := by
    unfold QGraph.allOut at h3
    split at h3
    · simp only [Except.ok.injEq] at h3; rw [← h3]
    · simp at h3
  obtain ⟨ks, hks, hf⟩ := outEdges_some hn v
  rw [hout, hks, Option.getD_some]
  generalize hes : (((Dict.get? m.graph.adj v).getD []).map fun q => (v, q.1)).insertionSort edgeLe = es at hf
  have hmem : ∀ e, e ∈ es ↔ e.1 = v ∧ e ∈ m.graph.adj.edges := by
    intro e; rw [← hes, List.mem_insertionSort, edges_from hn.ok]
  have hsort : es.Pairwise edgeLe := hes ▸ List.pairwise_insertionSort edgeLe _
  have hnd : es.Nodup := by
    rw [← hes, (List.perm_insertionSort edgeLe _).nodup_iff]
    have hd : Dict.Ok ((Dict.get? m.graph.adj v).getD []) := by
      cases hd : Dict.get? m.graph.adj v with
      | none => exact List.nodup_nil
      | some d => exact (Adj.ok_iff.mp hn.ok).2 v d hd
    unfold Dict.Ok Dict.keys at hd
    have : (((Dict.get? m.graph.adj v).getD []).map fun q => (v, q.1)) =
        (((Dict.get? m.graph.adj v).getD []).map Prod.fst).map fun j => (v, j) := by simp
    rw [this]
    exact hd.map (fun a b hab => by simpa using hab)
  refine ⟨fun k => ?_, es.map Prod.snd, ?_, ?_⟩
  · rw [indices_mem (indices_some.mpr hf) k]
    constructor
    · rintro ⟨⟨i, w⟩, he, hk⟩
      obtain ⟨rfl, he⟩ := (hmem _).mp he
      exact ⟨w, he, hk⟩
    · rintro ⟨w, he, hk⟩
      exact ⟨(v, w), (hmem _).mpr ⟨rfl, he⟩, hk⟩
  · rw [List.pairwise_map]
    refine (hsort.and hnd).imp_of_mem ?_
    rintro ⟨i, a⟩ ⟨j, b⟩ ha hb ⟨hle, hne⟩
    have hi := ((hmem _).mp ha).1
    have hj := ((hmem _).mp hb).1
    simp only at hi hj
    subst hi
    subst hj
    unfold edgeLe at hle
    have : a ≠ b := by rintro rfl; exact hne rfl
    simp only at hle ⊢
    omega
  · have hv : ∀ e ∈ es, e.1 = v := fun e he => ((hmem e).mp he).1
    clear hes hmem hsort hnd hks
    induction hf with
    | nil => exact .nil
    | cons hh ht ih =>
      rename_i e k es ks
      refine .cons ?_ (ih fun e' he' => hv e' (by simp [he']))
      have : (v, e.2) = e := by rw [← hv e (by simp)]
      rw [this]; exact hh

/-- C73. `in_edges[v]` lists the numbers of the edges into `v`, by increasing source. -/
theorem C73_in_edges [EmptyCollection A] [EmptyCollection B] {g : QGraph A} (hg : Built g) {given dflt : Dict Int C}
    {args : Dict Int (QArgs B)} {cap : Option (Nat → Option Nat)} {adjust : Bool} {m : Made A C B}
    (h : makeNetwork g given dflt args cap adjust = .ok m) (v : Nat) :
    ∃ ks, m.graph.inEdges v = some ks ∧
    (∀ k, k ∈ ks ↔ ∃ w, (w, v) ∈ m.graph.adj.edges ∧ Dict.get? m.graph.index (w, v) = some k) ∧
    ∃ ws : List Nat, ws.Pairwise (· < ·) ∧
      List.Forall₂ (fun w k => Dict.get? m.graph.index (w, v) = some k) ws ks := by
  obtain ⟨cap', h1, h2, h3⟩ := makeNetwork_parts h
  have hn := Numbered.of_built (prepare_built hg h1).1
  have hmem : ∀ e, e ∈ (m.graph.adj.edges.filter fun e => e.2 = v).insertionSort edgeLe ↔
      e.2 = v ∧ e ∈ m.graph.adj.edges := by
    intro e; rw [List.mem_insertionSort, List.mem_filter]; simp [and_comm]
  obtain ⟨ks, hks⟩ : ∃ ks, m.graph.inEdges v = some ks := by
    unfold QGraph.inEdges
    cases hi : m.graph.indices ((m.graph.adj.edges.filter fun e => e.2 = v).insertionSort edgeLe) with
    | some ks => exact ⟨ks, rfl⟩
    | none =>
      exfalso
      obtain ⟨e, he, hno⟩ := indices_none.mp hi
      have := (hn.edges e).mpr ((hmem e).mp he).2
      rw [hno] at this; simp at this
  refine ⟨ks, hks, ?_⟩
  have hf := indices_some.mp hks
  have hsort := List.pairwise_insertionSort edgeLe (m.graph.adj.edges.filter fun e => e.2 = v)
  have hnd : ((m.graph.adj.edges.filter fun e => e.2 = v).insertionSort edgeLe).Nodup := by
    rw [(List.perm_insertionSort edgeLe _).nodup_iff]
    exact (Adj.edges_nodup hn.ok).filter _
  generalize (m.graph.adj.edges.filter fun e => e.2 = v).insertionSort edgeLe = es at hf hmem hsort hnd
  refine ⟨fun k => ?_, es.map Prod.fst, ?_, ?_⟩
  · rw [indices_mem (indices_some.mpr hf) k]
    constructor
    · rintro ⟨⟨w, i⟩, he, hk⟩
      obtain ⟨rfl, he⟩ := (hmem _).mp he
      exact ⟨w, he, hk⟩
    · rintro ⟨w, he, hk⟩
      exact ⟨(w, v), (hmem _).mpr ⟨rfl, he⟩, hk⟩
  · rw [List.pairwise_map]
    refine (hsort.and hnd).imp_of_mem ?_
    rintro ⟨a, i⟩ ⟨b, j⟩ ha hb ⟨hle, hne⟩
    have hi := ((hmem _).mp ha).1
    have hj := ((hmem _).mp hb).1
    simp only at hi hj
    subst hi
    subst hj
    unfold edgeLe at hle
    have : a ≠ b := by rintro rfl; exact hne rfl
    simp only at hle ⊢
    omega
  · have hv : ∀ e ∈ es, e.2 = v := fun e he => ((hmem e).mp he).1
    clear hmem hsort hnd hks
    induction hf with
    | nil => exact .nil
    | cons hh ht ih =>
      rename_i e k es ks
      refine .cons ?_ (ih fun e' he' => hv e' (by simp [he']))
      have : (e.1, v) = e := by rw [← hv e (by simp)]
      rw [this]; exact hh

variable {T R : Type*} [LinearOrder T] [OrderTop T] [Zero T]

/-- The network with the queues made; `mk` gives the parameters of a queue. -/
def Made.cfg (m : Made A C B) (mk : QSpec C B → QCfg T) (none : QCfg T) (maxAgents : Cap) (unif : Nat → R)
    (jit : Nat → T → T) (garbage : Nat → Nat → T × Nat) : NetCfg T R where
  nE := m.graph.adj.edges.length
  qc k := match m.queues[k]? with
    | some (some q) => mk q
    | _ => none
  outEdges := m.out
  maxAgents := maxAgents
  unif := unif
  jit := jit
  garbage := garbage

/-- C73. A network made with `adjust_graph=True`, whose queues are of any class, but NullQueues for type 0, and whose
arrival and service functions do not go back in time, has everything that the theorems on networks ask for
(`NetCfg.OkA`): no agent can be stuck at a vertex without out-edges. -/
theorem C73_network_okA [EmptyCollection A] [EmptyCollection B] {g : QGraph A} (hg : Built g) {given dflt : Dict Int C}
    {args : Dict Int (QArgs B)} {cap : Option (Nat → Option Nat)} {m : Made A C B}
    (h : makeNetwork g given dflt args cap true = .ok m)
    {mk : QSpec C B → QCfg T} (hmk : ∀ q, (mk q).edge = q.edge)
    (hnull : ∀ q, q.edge.etype = 0 → (mk q).kind = .null)
    (hfwd : ∀ q, Forward (mk q)) {none : QCfg T} {maxAgents : Cap} {unif : Nat → R} {jit : Nat → T → T}
    (hjit : ∀ i t, t ≤ jit i t) {garbage : Nat → Nat → T × Nat} :
    (m.cfg mk none maxAgents unif jit garbage).OkA := by
  obtain ⟨cap', h1, h2, h3⟩ := makeNetwork_parts h
  obtain ⟨hb, hadj, -⟩ := prepare_built hg h1
  have hn := Numbered.of_built hb
  obtain ⟨-, a, ha, hga⟩ := hadj rfl
  obtain ⟨-, hq, hall⟩ := C66_queues hg h
  have hqc : ∀ k < m.graph.adj.edges.length, ∃ q, m.queues[k]? = some (some q) ∧ q.edge.idx = k ∧
      Dict.get? m.graph.index (q.edge.src, q.edge.tgt) = some k ∧
      (m.cfg mk none maxAgents unif jit garbage).qc k = mk q := by
    intro k hk
    obtain ⟨q, q1, q2, q3⟩ := hall k hk
    refine ⟨q, q1, q2, q3, ?_⟩
    show (match m.queues[k]? with | some (some q) => mk q | _ => none) = mk q
    rw [q1]
  have hout : ∀ k < m.graph.adj.edges.length, ((m.cfg mk none maxAgents unif jit garbage).qc k).kind ≠ .null →
      m.out ((m.cfg mk none maxAgents unif jit garbage).qc k).edge.tgt ≠ [] := by
    intro k hk hs
    obtain ⟨q, q1, q2, q3, q4⟩ := hqc k hk
    rw [q4] at hs ⊢
    rw [hmk]
    have hne : q.edge.etype ≠ 0 := fun h0 => hs (hnull q h0)
    -- the edge
    have hm : (q.edge.src, q.edge.tgt) ∈ m.graph.adj.edges := by rw [← hn.edges, q3]; rfl
    obtain ⟨x, hx⟩ := Option.isSome_iff_exists.mp ((Adj.mem_edges hn.ok).mp hm)
    obtain ⟨et, k', q', e1, e2, e3, e4, _⟩ := hq _ _ x hx
    rw [q3] at e2
    simp only [Option.some.injEq] at e2
    subst e2
    rw [q1] at e3
    simp only [Option.some.injEq] at e3
    subst e3
    have het : q.edge.etype = et := by rw [e4]
    -- the target has an out-edge, otherwise the type were 0
    obtain ⟨p1, -, p3⟩ := adjusted (a := .dicts g.adj) (ty := .none) (Numbered.of_built hg).ok trivial ha
    have hadj' : m.graph.adj = a := by rw [hga]; rfl
    have : ¬ ∀ j, a.look q.edge.tgt j = .none := by
      intro hno
      have := p3 rfl _ _ x (hadj' ▸ hx) hno
      rw [e1] at this
      simp only [Option.some.injEq] at this
      exact hne (het.trans this)
    push Not at this
    obtain ⟨j, hj⟩ := this
    have hmj : (q.edge.tgt, j) ∈ m.graph.adj.edges := by
      rw [Adj.mem_edges hn.ok, hadj', Option.isSome_iff_ne_none]; exact hj
    obtain ⟨i, hi⟩ := Option.isSome_iff_exists.mp ((hn.edges _).mpr hmj)
    have := ((C73_out_edges hg h q.edge.tgt).1 i).mpr ⟨j, hmj, hi⟩
    exact List.ne_nil_of_mem this
  refine ⟨?_, ?_, hout, ?_, hjit⟩
  · intro k hk
    obtain ⟨q, q1, q2, q3, q4⟩ := hqc k hk
    rw [q4, hmk, q2]
  · intro k hk
    obtain ⟨q, q1, q2, q3, q4⟩ := hqc k hk
    rw [q4]; exact hfwd q
  · intro k hk _ e he
    obtain ⟨w, hw, hi⟩ := ((C73_out_edges hg h _).1 e).mp he
    have := hn.lt _ _ hi
    rw [hn.count] at this; exact this

/-- C73: the same for QueueServers, LossQueues and NullQueues. -/
theorem C73_network_ok [EmptyCollection A] [EmptyCollection B] {g : QGraph A} (hg : Built g) {given dflt : Dict Int C}
    {args : Dict Int (QArgs B)} {cap : Option (Nat → Option Nat)} {m : Made A C B}
    (h : makeNetwork g given dflt args cap true = .ok m)
    {mk : QSpec C B → QCfg T} (hmk : ∀ q, (mk q).edge = q.edge)
    (hkind : ∀ q, (mk q).kind = .server ∨ (mk q).kind = .loss ∨ (mk q).kind = .null)
    (hnull : ∀ q, q.edge.etype = 0 → (mk q).kind = .null)
    (hfwd : ∀ q, Forward (mk q)) {none : QCfg T} {maxAgents : Cap} {unif : Nat → R} {jit : Nat → T → T}
    (hjit : ∀ i t, t ≤ jit i t) {garbage : Nat → Nat → T × Nat} :
    (m.cfg mk none maxAgents unif jit garbage).Ok := by
  refine (C73_network_okA (R := R) hg h hmk hnull hfwd hjit).ok fun k hk => ?_
  obtain ⟨q, q1, -⟩ := (C66_queues hg h).2.2 k hk
  have : (m.cfg mk none maxAgents unif jit garbage : NetCfg T R).qc k = mk q := by
    show (match m.queues[k]? with | some (some q) => mk q | _ => none) = mk q
    rw [q1]
  rw [this]
  unfold Simple
  rcases hkind q with h' | h' | h' <;> simp [h']

end

/-! ## The hypotheses are met -/

section

/-- A class of queues, for the examples. -/
abbrev Kls := QKind

/-- `default_classes`, queue_network.py lines 292-298. -/
def defaultClasses : Dict Int Kls := [(0, .null), (1, .server), (2, .loss), (3, .loss), (4, .loss)]

/-- Vertices 0, 1, 2; vertex 2 is a dead end. -/
def smallGraph : QGraph Unit := QGraph.ofAdj [(1, [(2, ⟨some 3, ()⟩), (0, ⟨none, ()⟩)]), (0, [(1, ⟨some 2, ()⟩)]), (2, [])]

theorem smallGraph_built : Built smallGraph := .new ⟨by decide, by decide⟩

/-- The network made from it, with QueueServers for edges of type 2. -/
def smallMade : Except Err (Made Unit Kls Unit) :=
  makeNetwork smallGraph [(2, .server)] defaultClasses [(2, ⟨some 5, ()⟩)] none true

example : ∃ m, smallMade = .ok m ∧ m.queues = [some ⟨.server, ⟨0, 1, 0, 2⟩, ⟨some 5, ()⟩⟩,
      some ⟨.server, ⟨1, 0, 1, 1⟩, ⟨none, ()⟩⟩, some ⟨.null, ⟨1, 2, 2, 0⟩, ⟨none, ()⟩⟩] ∧
    m.out 0 = [0] ∧ m.out 1 = [1, 2] ∧ m.out 2 = [] :=
  ⟨_, rfl, by decide +kernel, by decide +kernel, by decide +kernel, by decide +kernel⟩

/-- The hypotheses of `C73_network_ok` can be met by the network above. -/
example : ∃ m, smallMade = .ok m ∧
    (m.cfg (T := ℕ∞) (R := Nat)
      (fun q => ⟨if q.edge.etype = 0 then .null else .server, q.edge, .fin 1, fun _ t => t + 1, fun _ t => t + 1,
        .plain, .inf, ⊤, .inf, .inf⟩)
      ⟨.null, ⟨0, 0, 0, 0⟩, .fin 1, fun _ t => t, fun _ t => t, .plain, .inf, ⊤, .inf, .inf⟩
      .inf (fun _ => 0) (fun _ t => t) (fun _ _ => (0, 0))).Ok := by
  refine ⟨_, rfl, ?_⟩
  refine C73_network_ok smallGraph_built (show smallMade = _ from rfl) (fun q => rfl) (fun q => ?_) (fun q h => ?_)
    (fun q => ⟨fun _ _ => le_self_add, fun _ _ => le_self_add⟩) (fun _ _ => le_rfl)
  · by_cases h : q.edge.etype = 0 <;> simp [h]
  · simp [h]

example : smallGraph.getQueues .none .none (.many [2, 3]) = .ok [2, 0] := by decide +kernel
example : smallGraph.getQueues .none (.pair 1 2) .none = .ok [2] := by decide +kernel
example : smallGraph.getQueues .none (.list [(1, 2), (0, 1)]) .none = .ok [2, 0] := by decide +kernel

/-- Finding F18: with vertex capacities and no `adjust_graph`, all edges of one type get the capacity met first:
here the queue into vertex 2 (capacity 9) gets the 4 servers of vertex 1. -/
theorem C66_first_capacity : ∃ m, makeNetwork (A := Unit) (B := Unit)
      (QGraph.ofAdj [(0, [(1, ⟨some 1, ()⟩)]), (1, [(2, ⟨some 1, ()⟩)]), (2, [(0, ⟨some 1, ()⟩)])])
      [] defaultClasses [] (some fun v => if v = 1 then some 4 else some 9) false = .ok m ∧
    m.queues[1]? = some (some ⟨.server, ⟨1, 2, 1, 1⟩, ⟨some 4, ()⟩⟩) :=
  ⟨_, rfl, by decide +kernel⟩

/-- Finding F20: with `adjust_graph` (the default) the capacities are lost. -/
theorem C66_capacity_lost : ∃ m, makeNetwork (A := Unit) (B := Unit)
      (QGraph.ofAdj [(0, [(1, ⟨some 1, ()⟩)]), (1, [(2, ⟨some 1, ()⟩)]), (2, [(0, ⟨some 1, ()⟩)])])
      [] defaultClasses [] (some fun v => if v = 1 then some 4 else some 9) true = .ok m ∧
    m.queues[0]? = some (some ⟨.server, ⟨0, 1, 0, 1⟩, ⟨none, ()⟩⟩) :=
  ⟨_, rfl, by decide +kernel⟩

/-- A type without a class is an error. -/
example : makeNetwork (A := Unit) (B := Unit) (QGraph.ofAdj [(0, [(0, ⟨some 7, ()⟩)])]) [] defaultClasses [] none false =
    .error .keyError := rfl

end

end Verif
