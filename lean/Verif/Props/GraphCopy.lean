import Verif.GraphNet
import Verif.Props.GraphShow

/-! # Property C104: the graph of a copied network -/

namespace Verif

variable {A P C : Type*}

theorem indices_nxCopy (g : QGraph A) {es : List (Nat × Nat)} (h : es ≠ []) : g.nxCopy.indices es = none := by
  cases es with
  | nil => exact absurd rfl h
  | cons e es => rfl

/-- C104. On the graph of a copy: queues given by number, or no selection at all, mean the same as on the original; but no edge can
be named, alone or in a list, and an edge type can only be asked for if no edge has it. -/
theorem C104_copy_selects (g : QGraph A) :
    (∀ k es ts, g.nxCopy.getQueues (.one k) es ts = .ok [k]) ∧
    (∀ ks es ts, g.nxCopy.getQueues (.many ks) es ts = .ok ks) ∧
    g.nxCopy.getQueues .none .none .none = .ok (List.range g.adj.edges.length) ∧
    (∀ u v ts, g.nxCopy.getQueues .none (.pair u v) ts = .error .keyError) ∧
    (∀ es ts, es ≠ [] → g.nxCopy.getQueues .none (.list es) ts = .error .keyError) ∧
    ∀ ts, ((∃ e ∈ g.adj.edges, ∃ x t, g.adj.look e.1 e.2 = some x ∧ x.etype = some t ∧ t ∈ ts) →
        g.nxCopy.getQueues .none .none (.many ts) = .error .keyError) ∧
      ((¬ ∃ e ∈ g.adj.edges, ∃ x t, g.adj.look e.1 e.2 = some x ∧ x.etype = some t ∧ t ∈ ts) →
        g.nxCopy.getQueues .none .none (.many ts) = .ok []) := by
  refine ⟨fun _ _ _ => rfl, fun _ _ _ => rfl, rfl, fun _ _ _ => rfl, fun es ts he => ?_, fun ts => ?_⟩
  · cases es with
    | nil => exact absurd rfl he
    | cons e es => rfl
  · simp only [QGraph.getQueues, QGraph.ofTypes]
    generalize hf : List.filter _ g.nxCopy.adj.edges = fl
    have hm : fl ≠ [] ↔ ∃ e ∈ g.adj.edges, ∃ x t, g.adj.look e.1 e.2 = some x ∧ x.etype = some t ∧ t ∈ ts := by
      constructor
      · intro hn
        obtain ⟨e, he⟩ := List.exists_mem_of_ne_nil _ hn
        rw [← hf] at he
        obtain ⟨he, hp⟩ := List.mem_filter.mp he
        refine ⟨e, he, ?_⟩
        split at hp
        · rename_i t r hx
          exact ⟨_, t, hx, rfl, by simpa using hp⟩
        · cases hp
      · rintro ⟨e, he, x, t, hx, ht, hm⟩
        have : e ∈ fl := by
          rw [← hf]
          refine List.mem_filter.mpr ⟨he, ?_⟩
          obtain ⟨et, r⟩ := x
          simp only at ht
          subst ht
          have hx' : g.nxCopy.adj.look e.1 e.2 = _ := hx
          simp only [hx']
          simpa using hm
        exact List.ne_nil_of_mem this
    refine ⟨fun h => ?_, fun h => ?_⟩
    · rw [indices_nxCopy g (hm.mpr h)]
    · have : fl = [] := by
        by_contra hc
        exact h (hm.mp hc)
      subst this
      rfl

/-- C104. The graph of a copy has all edges with their properties, yet `is_edge` says False of each of them; an edge that is added,
new or not, gets number 0, so that the queue it then names is the first of the network. -/
theorem C104_copy_numbers (g : QGraph A) :
    g.nxCopy.adj = g.adj ∧ (∀ e, g.nxCopy.isEdge e = false) ∧
    ∀ [EmptyCollection A] (u v : Nat), (g.nxCopy.addEdge u v).isEdge (u, v) = true ∧
      ∀ ts, (g.nxCopy.addEdge u v).getQueues .none (.pair u v) ts = .ok [0] := by
  refine ⟨rfl, fun _ => rfl, fun u v => ?_⟩
  have h : Dict.get? (g.nxCopy.addEdge u v).index (u, v) = some 0 := by
    unfold QGraph.addEdge
    simp [QGraph.nxCopy, QGraph.ofAdj, Dict.get?, Dict.set, Adj.edges]
  refine ⟨by unfold QGraph.isEdge; rw [h]; rfl, fun ts => ?_⟩
  simp only [QGraph.getQueues, h]

theorem setPos_g {c c' : Canvas A P C} {d : Dict Nat P} (h : c.setPos d = .ok c') : c'.g = c.g := by
  unfold Canvas.setPos at h
  split at h
  · cases h
  · cases h; rfl

theorem lookAll_none {d : Dict Nat P} {vs : List Nat} : Canvas.lookAll d vs = none ↔ ∃ v ∈ vs, Dict.get? d v = none := by
  induction vs with
  | nil => simp [Canvas.lookAll]
  | cons v vs ih =>
    unfold Canvas.lookAll
    split
    · rename_i h; simp [h]
    · rename_i p h; simp [h, ih]

/-- C104. No edge of a copy can be given a colour, and a copy that has an edge cannot be drawn: KeyError, whatever positions are
passed; nor can it be drawn by `show_active` or `show_type`. -/
theorem C104_copy_not_drawn (c : Canvas A P C) :
    (∀ e x, c.nxCopy.setEdgeColor e x = .error .keyError) ∧
    (c.g.adj.edges ≠ [] → ∀ arg spring, c.nxCopy.draw arg spring = .error .keyError) ∧
    (c.g.adj ≠ [] → ∀ cols pens t arg spring, c.nxCopy.showType cols pens t arg spring = .error .typeError) ∧
    (c.g.adj ≠ [] → ∀ cols act arg spring, ∀ r, c.nxCopy.showActive cols act arg spring ≠ .ok r) := by
  have hfill : ∀ v ∈ Dict.keys c.g.adj, ∀ x, c.nxCopy.setVertexFill v x = .error .typeError := by
    intro v hv x
    unfold Canvas.setVertexFill
    rw [if_pos (by exact hv)]
    rfl
  have hkeys : c.g.adj ≠ [] → ∃ v vs, Dict.keys c.g.adj = v :: vs := by
    intro h
    cases hk : c.g.adj with
    | nil => exact absurd hk h
    | cons p g => exact ⟨p.1, g.map Prod.fst, rfl⟩
  refine ⟨fun e x => ?_, fun he arg spring => ?_, fun hn cols pens t arg spring => ?_, fun hn cols act arg spring r => ?_⟩
  · unfold Canvas.setEdgeColor
    split
    · rfl
    · rfl
  · have hfs : ∀ l s, Canvas.fillSegments c.g.nxCopy.index l c.g.nxCopy.adj.edges s = (.error .keyError : Except Err (List (Option (P × P)))) := by
      intro l s
      have : c.g.nxCopy.adj.edges = c.g.adj.edges := rfl
      rw [this]
      cases hes : c.g.adj.edges with
      | nil => exact absurd hes he
      | cons e es => rfl
    unfold Canvas.draw
    cases arg with
    | none =>
      have hp : c.nxCopy.pos = some [] := rfl
      have hg : c.nxCopy.g = c.g.nxCopy := rfl
      simp only [hp, hg, hfs]
    | some d =>
      simp only
      cases hs : c.nxCopy.setPos d with
      | error e =>
        unfold Canvas.setPos at hs
        split at hs
        · cases hs; rfl
        · cases hs
      | ok c' =>
        have hg := setPos_g hs
        have hp : ∃ l, c'.pos = some l := by
          unfold Canvas.setPos at hs
          split at hs
          · cases hs
          · cases hs; exact ⟨_, rfl⟩
        obtain ⟨l, hl⟩ := hp
        have hg' : c'.g = c.g.nxCopy := hg
        simp only [hl, hg', hfs]
  · obtain ⟨v, vs, hv⟩ := hkeys hn
    unfold Canvas.showType Canvas.paintDraw
    have : Dict.keys c.nxCopy.g.adj = v :: vs := hv
    rw [this]
    unfold Canvas.paintNodes
    have h1 : typeFill cols pens c.nxCopy.g t v = .ok cols.vInactive := rfl
    rw [h1]
    simp only [hfill v (by rw [hv]; simp)]
  · obtain ⟨v, vs, hv⟩ := hkeys hn
    unfold Canvas.showActive Canvas.paintDraw
    have : Dict.keys c.nxCopy.g.adj = v :: vs := hv
    rw [this]
    unfold Canvas.paintNodes
    cases activeFill cols act c.nxCopy.g v with
    | error e => simp
    | ok x => simp only [hfill v (by rw [hv]; simp)]; simp

/-- The hypotheses are met: the original with three edges can be drawn and its edges are known; its copy has the three edges and
knows none of them. -/
theorem C104_met : showCanvas.g.adj.edges.length = 3 ∧
    showCanvas.g.getQueues .none (.pair 1 1) .none = .ok [2] ∧
    showCanvas.g.getQueues .none .none (.one 2) = .ok [2, 1] ∧
    showCanvas.nxCopy.g.getQueues .none (.pair 1 1) .none = .error .keyError ∧
    showCanvas.nxCopy.g.getQueues .none .none (.many [2]) = .error .keyError ∧
    showCanvas.nxCopy.g.getQueues .none .none (.many [3]) = .ok [] ∧
    (showCanvas.nxCopy.g.addEdge 1 1).getQueues .none (.pair 1 1) .none = .ok [0] ∧
    (match showCanvas.draw none [(0, 10), (1, 11)] with
      | .ok _ => true
      | .error _ => false) = true ∧
    (match showCanvas.nxCopy.draw (some [(0, 10), (1, 11)]) [] with
      | .ok _ => false
      | .error e => decide (e = .keyError)) = true := by
  refine ⟨by decide +kernel, rfl, rfl, rfl, rfl, rfl, rfl, by decide +kernel, by decide +kernel⟩

end Verif
