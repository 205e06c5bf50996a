import Verif.Props.GraphNet
import Verif.Props.GraphGen2
import Verif.Props.Net1
import Verif.Props.Net3

/-! # From a generated graph to a simulation: C92 -/

namespace Verif

open GSpec GenSpec UFSpec NetSpec

section

variable {A C B : Type*} [EmptyCollection A] [EmptyCollection B]

/-- Every vertex below `n` has an edge to another vertex, if different vertices below `n ≥ 2` are connected by edges that go both
ways. -/
theorem has_neighbour {n : Nat} (hn : 2 ≤ n) {E : List (Nat × Nat)} (hs : ∀ u v, (u, v) ∈ E → u ≠ v ∧ (v, u) ∈ E)
    (hc : Connected n E) {v : Nat} (hv : v < n) : ∃ w, (v, w) ∈ E := by
  have main : ∀ {x y : Nat}, Conn E x y → x ≠ y → (∃ w, (x, w) ∈ E) ∧ ∃ w, (y, w) ∈ E := by
    intro x y h
    induction h with
    | rel x y h => exact fun _ => ⟨⟨y, h⟩, x, (hs _ _ h).2⟩
    | refl x => exact fun h => absurd rfl h
    | symm x y _ ih => exact fun h => (ih (Ne.symm h)).symm
    | trans x y z _ _ ih1 ih2 =>
      intro h
      by_cases hxy : x = y
      · subst hxy; exact ih2 h
      · by_cases hyz : y = z
        · subst hyz; exact ih1 h
        · exact ⟨(ih1 hxy).1, (ih2 hyz).2⟩
  by_cases h0 : v = 0
  · subst h0; exact (main (hc 0 hv 1 (by omega)) (by omega)).1
  · exact (main (hc v hv 0 (by omega)) h0).1

/-- C92. `QueueNetwork(g, q_classes, q_args)` works for every graph whose vertices are `0, ..., n - 1`, all with out-edges, and
whose edges have types with a class; and no edge or type of the graph is changed. -/
theorem C92_network_made {g : QGraph A} (hg : Built g) {n : Nat} (hn : 1 ≤ n)
    (hv : ∀ v, v ∈ Dict.keys g.adj ↔ v < n) (hend : ∀ e ∈ g.adj.edges, e.2 < n) (hout : ∀ v < n, ∃ w, (v, w) ∈ g.adj.edges)
    {given dflt : Dict Int C}
    (hty : ∀ u v x, g.adj.look u v = some x → ∃ et, x.etype = some et ∧ (et ∈ Dict.keys given ∨ et ∈ Dict.keys dflt))
    (args : Dict Int (QArgs B)) (cap : Option (Nat → Option Nat)) :
    ∃ m, makeNetwork g given dflt args cap true = .ok m ∧
      ∀ u v et, (∃ x, m.graph.adj.look u v = some x ∧ x.etype = some et) ↔ ∃ x, g.adj.look u v = some x ∧ x.etype = some et := by
  have hN := Numbered.of_built hg
  have hne : g.adj ≠ [] := by
    intro h0
    have := (hv 0).mpr (by omega)
    rw [h0] at this
    simp at this
  obtain ⟨a, ha⟩ : ∃ a, Adj.adjacency2graph (.dicts g.adj) .none true = .ok a := by
    simp only [Adj.adjacency2graph, Adj.ofArg, if_neg hne, Adj.types, Adj.setTypes]
    exact ⟨_, rfl⟩
  have hp : prepare g cap true = .ok (QGraph.ofAdj a, none) := by simp only [prepare, if_true, ha]
  obtain ⟨c1, c2⟩ := C59_adjust_two (a := .dicts g.adj) (ty := .none) hN.ok trivial ha
  have hisE : ∀ u v x, IsEdge (.dicts g.adj) u v x ↔ g.adj.look u v = some x := by
    intro u v x
    constructor
    · rintro ⟨p, hp, rfl, hx⟩
      unfold Adj.look
      rw [Dict.get?_of_mem hN.ok.1 (show (p.1, p.2) ∈ g.adj from hp)]
      exact Dict.get?_of_mem (hN.ok.2 p hp) hx
    · intro h
      unfold Adj.look at h
      obtain ⟨d, h1, h2⟩ := Option.bind_eq_some_iff.mp h
      exact ⟨(u, d), Dict.mem_of_get? h1, rfl, Dict.mem_of_get? h2⟩
  have hrow : ∀ w, IsRow (.dicts g.adj) w ↔ w < n := by
    intro w
    rw [← hv w]
    show (∃ p ∈ g.adj, p.1 = w) ↔ w ∈ g.adj.map Prod.fst
    simp
  have hlookE : ∀ u v x, g.adj.look u v = some x → (u, v) ∈ g.adj.edges := fun u v x h =>
    (Adj.mem_edges hN.ok).mpr (by rw [h]; rfl)
  have hver : ∀ w, IsVertex (.dicts g.adj) w ↔ w < n := by
    intro w
    constructor
    · rintro (h | ⟨u, x, h⟩)
      · exact (hrow w).mp h
      · exact hend _ (hlookE _ _ _ ((hisE _ _ _).mp h))
    · exact fun h => .inl ((hrow w).mpr h)
  have hdead : ∀ w, ¬ Dead (.dicts g.adj) w := by
    rintro w ⟨h1, h2⟩
    obtain ⟨y, hy⟩ := hout w ((hver w).mp h1)
    obtain ⟨x, hx⟩ := Option.isSome_iff_exists.mp ((Adj.mem_edges hN.ok).mp hy)
    exact h2 y x ((hisE _ _ _).mpr hx)
  have hsame : ∀ u v et, (∃ x, a.look u v = some x ∧ x.etype = some et) ↔ ∃ x, g.adj.look u v = some x ∧ x.etype = some et := by
    intro u v et
    constructor
    · rintro ⟨x, hx, hxt⟩
      obtain ⟨x0, e1, e2, e3⟩ := (c2 u v x).mp hx
      have hx0 := (hisE _ _ _).mp e1
      obtain ⟨t0, ht0, -⟩ := hty _ _ _ hx0
      rcases e3 with ⟨h, -⟩ | ⟨-, et', he1, he2⟩
      · exact absurd h (hdead v)
      · rcases he1 with h | ⟨-, h | ⟨h, -⟩⟩
        · cases h
        · refine ⟨x0, hx0, ?_⟩
          rw [h, ← he2, hxt]
        · rw [ht0] at h; cases h
    · rintro ⟨x0, hx0, hxt⟩
      exact ⟨⟨some et, x0.rest⟩, (c2 u v _).mpr ⟨x0, (hisE _ _ _).mpr hx0, rfl,
        .inr ⟨hdead v, et, .inr ⟨fun t h => (by cases h), .inl hxt⟩, rfl⟩⟩, rfl⟩
  have hba : Built (QGraph.ofAdj a) := (prepare_built hg hp).1
  have hka : ∀ w, w ∈ Dict.keys a ↔ w < n := fun w => (c1 w).trans (hver w)
  have hlen : a.length = n := by
    have hd : (Dict.keys a).Nodup := (Numbered.of_built hba).ok.1
    have : (Dict.keys a).Perm (List.range n) :=
      (List.perm_ext_iff_of_nodup hd List.nodup_range).mpr fun v => by rw [hka, List.mem_range]
    have := this.length_eq
    simpa [Dict.keys] using this
  have hall : ∀ u v x, a.look u v = some x → ∃ et, x.etype = some et ∧ (et ∈ Dict.keys given ∨ et ∈ Dict.keys dflt) := by
    intro u v x hx
    obtain ⟨x0, e1, e2, e3⟩ := (c2 u v x).mp hx
    have hx0 := (hisE _ _ _).mp e1
    obtain ⟨t0, ht0, hin⟩ := hty _ _ _ hx0
    rcases e3 with ⟨h, -⟩ | ⟨-, et', he1, he2⟩
    · exact absurd h (hdead v)
    · rcases he1 with h | ⟨-, h | ⟨h, -⟩⟩
      · cases h
      · have : et' = t0 := Option.some.inj (h.symm.trans ht0)
        subst this
        exact ⟨et', he2, hin⟩
      · rw [ht0] at h; cases h
  obtain ⟨m, hm⟩ := (C66_when_ok hg (given := given) (dflt := dflt) (args := args) hp).mpr
    ⟨hall, fun w hw => hlen.symm ▸ (hka w).mp hw⟩
  refine ⟨m, hm, ?_⟩
  obtain ⟨cap', h1, -, -⟩ := makeNetwork_parts hm
  rw [hp] at h1
  have : m.graph = QGraph.ofAdj a := ((Prod.mk.inj (Except.ok.inj h1)).1).symm
  rw [this]
  exact hsame

variable {T R : Type*} [LinearOrder T] [OrderTop T] [Zero T] [LinearOrder R] [Add R]

/-- What is asked of the queues: classes QueueServer, LossQueue and, exactly for type 0, NullQueue; at least one server and no negative
buffer; arrival and service times that do not go back, and finite services. -/
structure GoodQueues (mk : QSpec C B → QCfg T) : Prop where
  edge : ∀ q, (mk q).edge = q.edge
  kind : ∀ q, (mk q).kind = .server ∨ (mk q).kind = .loss ∨ (mk q).kind = .null
  null : ∀ q, q.edge.etype = 0 → (mk q).kind = .null
  fwd : ∀ q, Forward (mk q)
  svc : ∀ q i t, t < ⊤ → (mk q).serviceF i t < ⊤
  servers : ∀ q k, (mk q).servers = .fin k → 1 ≤ k
  buffer : ∀ q k, (mk q).buffer = .fin k → 0 ≤ k

/-- C92. A network made from such a graph can be initialised with any positive number of active queues, and can then be
simulated for any number of events: nothing raises. -/
theorem C92_runs {g : QGraph A} (hg : Built g) {given dflt : Dict Int C} {args : Dict Int (QArgs B)} {cap : Option (Nat → Option Nat)}
    {m : Made A C B} (h : makeNetwork g given dflt args cap true = .ok m) {mk : QSpec C B → QCfg T} (hmk : GoodQueues mk)
    {u v : Nat} {x : EAttr A} (hx : m.graph.adj.look u v = some x) (hx0 : x.etype ≠ some 0)
    {none : QCfg T} {maxAgents : Cap} (hmax : ∀ k, maxAgents = .fin k → 0 ≤ k) {unif : Nat → R} {jit : Nat → T → T}
    (hjit : ∀ i t, t ≤ jit i t) (hjit' : ∀ i t, t < ⊤ → jit i t < ⊤) {garbage : Nat → Nat → T × Nat}
    {pick : List Nat → Nat → List Nat}
    (hpick : ∀ l i, l.Nodup → i ≤ l.length → (pick l i).Nodup ∧ (∀ e ∈ pick l i, e ∈ l) ∧ (pick l i).length = i)
    (b : Nat → Bool) (bas : Bool) {probs : Nat → List R} (hprobs : ∀ v, (probs v).length = (m.out v).length)
    {nActive : Int} (hact : 1 ≤ nActive) :
    let N := m.cfg mk none maxAgents unif jit garbage
    ∃ n0, (Net.init N b bas probs).initialise N pick (.nActive (.int nActive)) = .ok n0 ∧ NetReach N b n0 ∧
      ∀ j, ∃ n', n0.simulate N j = .ok n' ∧ NetReach N b n' := by
  intro N
  have hN : N.Ok := C73_network_ok hg h hmk.edge hmk.kind hmk.null hmk.fwd hjit
  obtain ⟨-, hq, hall⟩ := C66_queues hg h
  have hqc : ∀ k < N.nE, ∃ q, m.queues[k]? = some (some q) ∧ N.qc k = mk q := by
    intro k hk
    obtain ⟨q, q1, -⟩ := hall k hk
    refine ⟨q, q1, ?_⟩
    show (match m.queues[k]? with | some (some q) => mk q | _ => none) = mk q
    rw [q1]
  have hF : N.FinSvc := by
    refine ⟨?_, hjit', ?_, ?_⟩
    · intro k hk _ i t ht
      obtain ⟨q, -, e⟩ := hqc k hk
      rw [e]; exact hmk.svc q i t ht
    · intro k hk _ c hc
      obtain ⟨q, -, e⟩ := hqc k hk
      rw [e] at hc; exact hmk.servers q c hc
    · intro k hk _ c hc
      obtain ⟨q, -, e⟩ := hqc k hk
      rw [e] at hc; exact hmk.buffer q c hc
  have hnew : NetReach N b (Net.init N b bas probs) := .new bas probs hprobs
  obtain ⟨e1, e2, e3, e4⟩ := C50_initialize_nActive hN.okA (Net.init N b bas probs) pick hact hpick
  set cands := (List.range N.nE).filter fun e => decide ((N.qc e).edge.etype ≠ 0) with hcands
  set l := pick cands (min nActive.toNat cands.length) with hl
  -- the edge of a type other than 0
  have hcand : cands ≠ [] := by
    obtain ⟨et, k, q, t1, t2, t3, t4, -⟩ := hq u v x hx
    have hk : k < N.nE := by
      obtain ⟨cap', h1, -, -⟩ := makeNetwork_parts h
      have hn := Numbered.of_built (prepare_built hg h1).1
      have := hn.lt _ _ t2
      rw [hn.count] at this
      exact this
    obtain ⟨q', q1, q2⟩ := hqc k hk
    obtain rfl : q = q' := Option.some.inj (Option.some.inj (t3.symm.trans q1))
    refine List.ne_nil_of_mem (a := k) ?_
    rw [hcands, List.mem_filter, List.mem_range, decide_eq_true_eq, q2, hmk.edge, t4]
    refine ⟨hk, fun h0 => hx0 ?_⟩
    simp only at h0
    rw [t1, h0]
  have hlen : 1 ≤ l.length := by
    have h1 : 1 ≤ cands.length := List.length_pos_iff.mpr hcand
    omega
  obtain ⟨e, he⟩ := List.exists_mem_of_length_pos hlen
  obtain ⟨n0, f1, f2, f3, -⟩ := C50_initialize hN.okA (fun k hk => hmax k hk) hnew pick e2 (fun e he => (e3 e he).1) (.inl rfl)
    ⟨e, he, (e3 e he).2⟩
  have hreach : NetReach N b n0 := by
    refine .step (.initialise pick (.queues l)) hnew (.inl rfl) f1
  refine ⟨n0, e1.trans f1, hreach, fun j => ?_⟩
  obtain ⟨n', g1, g2, -⟩ := C41_never_crashes hN (.inl hF) hreach f2 j
  exact ⟨n', g1, g2⟩

/-- C92 for `generate_pagerank_graph`: for every number of vertices `n ≥ 2`, all points, ranks and angles, the graph is made, it has
types 1, 2 and 3 only, an edge of type 1 and an edge from every vertex; so `QueueNetwork(g)` works whenever these types have
classes (they do by default), and then `C92_runs` applies. -/
theorem C92_pagerank {K D D' : Type*} [LinearOrder K] [LinearOrder D] [OrderTop D] [LinearOrder D'] [Zero K] {n : Nat} (hn : 2 ≤ n)
    (d : Nat → Nat → D') (pr : Nat → K) {k : Nat} (hk : 1 ≤ k) (hkn : k ≤ n) (f : Nat) (dist : Nat → Nat → D)
    {given dflt : Dict Int C} (hty : ∀ t : Int, t = 1 ∨ t = 2 ∨ t = 3 → t ∈ Dict.keys given ∨ t ∈ Dict.keys dflt)
    (args : Dict Int (QArgs B)) (cap : Option (Nat → Option Nat)) :
    ∃ (g : QGraph A) (m : Made A C B), pagerankGraph n d pr k f dist = .ok g ∧ Built g ∧ makeNetwork g given dflt args cap true = .ok m ∧
      (∀ u v et, (∃ x, m.graph.adj.look u v = some x ∧ x.etype = some et) ↔ ∃ x, g.adj.look u v = some x ∧ x.etype = some et) ∧
      ∃ u v x, m.graph.adj.look u v = some x ∧ x.etype ≠ some 0 := by
  obtain ⟨g0', h0', -, -, hs0, hc0, -⟩ := C63_minimal (A := A) hn d
  obtain ⟨g0, g, h0, hg, hb, hv, hc, he, ht⟩ := C77_pagerank_graph (A := A) hn d pr hk hkn f dist
  obtain rfl : g0' = g0 := Except.ok.inj (h0'.symm.trans h0)
  have hN := Numbered.of_built hb
  have hout : ∀ v < n, ∃ w, (v, w) ∈ g.adj.edges := by
    intro v hvn
    obtain ⟨w, hw⟩ := has_neighbour hn hs0 hc0 hvn
    exact ⟨w, (he v w).mpr (.inl hw)⟩
  have hend : ∀ e ∈ g.adj.edges, e.2 < n := by
    rintro ⟨i, j⟩ hij
    have hsrc : ∀ {a b}, (a, b) ∈ g.adj.edges → a < n := fun hab => by
      obtain ⟨p, hp, hq⟩ := List.mem_flatMap.mp hab
      obtain ⟨q, -, hq⟩ := List.mem_map.mp hq
      cases hq
      exact (hv p.1).mp (List.mem_map.mpr ⟨p, hp, rfl⟩)
    rcases (he i j).mp hij with h | ⟨rfl, h, -⟩
    · exact hsrc ((he j i).mpr (.inl (hs0 i j h).2))
    · exact h
  have htype : ∀ u v x, g.adj.look u v = some x → ∃ et : Int, x.etype = some et ∧ (et = 1 ∨ et = 2 ∨ et = 3) := by
    intro u v x hx
    refine ⟨_, ht u v x hx, ?_⟩
    unfold typeOf
    split
    · simp
    · split <;> simp
  obtain ⟨m, hm, hsame⟩ := C92_network_made (C := C) (B := B) hb (by omega : 1 ≤ n) hv hend hout (given := given) (dflt := dflt)
    (fun u v x hx => by
      obtain ⟨et, h1, h2⟩ := htype u v x hx
      exact ⟨et, h1, hty et h2⟩) args cap
  refine ⟨g, m, hg, hb, hm, hsame, ?_⟩
  obtain ⟨w, hw⟩ := hout 0 (by omega)
  obtain ⟨x, hx⟩ := Option.isSome_iff_exists.mp ((Adj.mem_edges hN.ok).mp hw)
  obtain ⟨et, h1, h2⟩ := htype _ _ _ hx
  obtain ⟨y, hy, hyt⟩ := (hsame 0 w et).mpr ⟨x, hx, h1⟩
  refine ⟨0, w, y, hy, ?_⟩
  rw [hyt]
  rcases h2 with rfl | rfl | rfl <;> simp

/-- C92 for `generate_random_graph`: whenever it returns a graph (C76_when says when) and all types given have classes, `QueueNetwork(g)`
works and keeps edges and types; if no proportion of type 0 is positive, then `C92_runs` applies. -/
theorem C92_random {F D : Type*} [Field F] [LinearOrder F] [IsStrictOrderedRing F] [LinearOrder D] {n : Nat} (hn : 2 ≤ n) {d : Nat → Nat → D}
    {isOne sumOk : F → Bool} (hone : ∀ x, isOne x = true → 0 < x) {probLoop : F} {prnd : Nat → F} {props lprops : Dict Int F}
    {rnd lrnd : Nat → F} (hr : ∀ i, 0 ≤ rnd i ∧ rnd i < 1) (hlr : ∀ i, 0 ≤ lrnd i ∧ lrnd i < 1) {g : QGraph A}
    (h : randomGraph isOne sumOk n d probLoop prnd props lprops rnd lrnd = .ok g)
    {given dflt : Dict Int C} (hty : ∀ t p, (t, p) ∈ props ∨ (t, p) ∈ lprops → 0 < p → t ∈ Dict.keys given ∨ t ∈ Dict.keys dflt)
    (args : Dict Int (QArgs B)) (cap : Option (Nat → Option Nat)) :
    ∃ m : Made A C B, Built g ∧ makeNetwork g given dflt args cap true = .ok m ∧
      (∀ u v et, (∃ x, m.graph.adj.look u v = some x ∧ x.etype = some et) ↔ ∃ x, g.adj.look u v = some x ∧ x.etype = some et) ∧
      ((∀ p, (0, p) ∈ props → ¬ 0 < p) → ∃ u v x, m.graph.adj.look u v = some x ∧ x.etype ≠ some 0) := by
  obtain ⟨g0', h0', -, -, hs0, hc0, -⟩ := C63_minimal (A := A) hn d
  obtain ⟨g0, h0, hb, hv, hc, he, hl, ht⟩ := C76_random_graph (A := A) hn hone hr hlr h
  obtain rfl : g0' = g0 := Except.ok.inj (h0'.symm.trans h0)
  have hN := Numbered.of_built hb
  have hout : ∀ v < n, ∃ w, v ≠ w ∧ (v, w) ∈ g.adj.edges := by
    intro v hvn
    obtain ⟨w, hw⟩ := has_neighbour hn hs0 hc0 hvn
    exact ⟨w, (hs0 v w hw).1, (he v w (hs0 v w hw).1).mpr hw⟩
  have hsrc : ∀ {a b}, (a, b) ∈ g.adj.edges → a < n := fun hab => by
    obtain ⟨p, hp, hq⟩ := List.mem_flatMap.mp hab
    obtain ⟨q, -, hq⟩ := List.mem_map.mp hq
    cases hq
    exact (hv p.1).mp (List.mem_map.mpr ⟨p, hp, rfl⟩)
  have hend : ∀ e ∈ g.adj.edges, e.2 < n := by
    rintro ⟨i, j⟩ hij
    by_cases hij' : i = j
    · subst hij'; exact hsrc hij
    · have h1 := (he i j hij').mp hij
      exact hsrc ((he j i (Ne.symm hij')).mpr (hs0 i j h1).2)
  have htype : ∀ u v x, g.adj.look u v = some x → ∃ et p, x.etype = some et ∧ (et, p) ∈ (if u = v then lprops else props) ∧ 0 < p := by
    intro u v x hx
    obtain ⟨x', t, p, h1, h2, h3, h4⟩ := ht u v ((Adj.mem_edges hN.ok).mpr (by rw [hx]; rfl))
    obtain rfl : x = x' := Option.some.inj (hx.symm.trans h1)
    exact ⟨t, p, h2, h3, h4⟩
  obtain ⟨m, hm, hsame⟩ := C92_network_made (C := C) (B := B) hb (by omega : 1 ≤ n) hv hend
    (fun v hvn => (hout v hvn).imp fun w hw => hw.2) (given := given) (dflt := dflt)
    (fun u v x hx => by
      obtain ⟨et, p, h1, h2, h3⟩ := htype u v x hx
      refine ⟨et, h1, hty et p ?_ h3⟩
      split at h2
      · exact .inr h2
      · exact .inl h2) args cap
  refine ⟨m, hb, hm, hsame, fun hz => ?_⟩
  obtain ⟨w, hw0, hw⟩ := hout 0 (by omega)
  obtain ⟨x, hx⟩ := Option.isSome_iff_exists.mp ((Adj.mem_edges hN.ok).mp hw)
  obtain ⟨et, p, h1, h2, h3⟩ := htype _ _ _ hx
  obtain ⟨y, hy, hyt⟩ := (hsame 0 w et).mpr ⟨x, hx, h1⟩
  refine ⟨0, w, y, hy, fun h4 => ?_⟩
  rw [if_neg hw0] at h2
  rw [hyt] at h4
  cases h4
  exact hz p h2 h3

/-- The example of the documentation: `g = generate_pagerank_graph(n); net = QueueNetwork(g); net.initialize(nActive);
net.simulate(n=j)`. -/
theorem C92_pagerank_runs {K D D' : Type*} [LinearOrder K] [LinearOrder D] [OrderTop D] [LinearOrder D'] [Zero K] {n : Nat} (hn : 2 ≤ n)
    (d : Nat → Nat → D') (pr : Nat → K) {k : Nat} (hk : 1 ≤ k) (hkn : k ≤ n) (f : Nat) (dist : Nat → Nat → D)
    {mk : QSpec QKind B → QCfg T} (hmk : GoodQueues mk) (none : QCfg T) (unif : Nat → R) {jit : Nat → T → T}
    (hjit : ∀ i t, t ≤ jit i t) (hjit' : ∀ i t, t < ⊤ → jit i t < ⊤) (garbage : Nat → Nat → T × Nat) {pick : List Nat → Nat → List Nat}
    (hpick : ∀ l i, l.Nodup → i ≤ l.length → (pick l i).Nodup ∧ (∀ e ∈ pick l i, e ∈ l) ∧ (pick l i).length = i)
    (b : Nat → Bool) (bas : Bool) {nActive : Int} (hact : 1 ≤ nActive) :
    ∃ (g : QGraph A) (m : Made A QKind B), pagerankGraph n d pr k f dist = .ok g ∧ makeNetwork g [] defaultClasses [] .none true = .ok m ∧
      ∀ probs : Nat → List R, (∀ v, (probs v).length = (m.out v).length) →
        let N := m.cfg mk none .inf unif jit garbage
        ∃ n0, (Net.init N b bas probs).initialise N pick (.nActive (.int nActive)) = .ok n0 ∧
          ∀ j, ∃ n', n0.simulate N j = .ok n' := by
  obtain ⟨g, m, h1, h2, h3, -, u, v, x, h4, h5⟩ := C92_pagerank (A := A) (B := B) hn d pr hk hkn f dist (given := []) (dflt := defaultClasses)
    (fun t ht => .inr (by rcases ht with rfl | rfl | rfl <;> decide)) [] .none
  refine ⟨g, m, h1, h3, fun probs hp => ?_⟩
  obtain ⟨n0, r1, -, r2⟩ := C92_runs h2 h3 hmk h4 h5 (none := none) (maxAgents := .inf) (fun k hk => by cases hk) hjit hjit' (unif := unif)
    (garbage := garbage) hpick b bas hp hact
  exact ⟨n0, r1, fun j => (r2 j).imp fun n' hn' => hn'.1⟩

/-- Hypotheses of C92 can be met: queues of the default classes whose services take 1 and arrivals come every 2. -/
example : GoodQueues (T := ℕ∞) (C := QKind) (B := Unit)
      (fun q => ⟨if q.edge.etype = 0 then .null else if q.edge.etype = 1 then .server else .loss, q.edge, .fin 1, fun _ t => t + 2, fun _ t => t + 1,
        .plain, .inf, ⊤, .fin 0, .inf⟩) ∧
    (∀ l : List Nat, ∀ i, l.Nodup → i ≤ l.length → (l.take i).Nodup ∧ (∀ e ∈ l.take i, e ∈ l) ∧ (l.take i).length = i) := by
  refine ⟨⟨fun q => rfl, fun q => ?_, fun q h => ?_, fun q => ⟨fun _ _ => le_self_add, fun _ _ => le_self_add⟩, fun q i t ht => ?_,
    fun q k hk => ?_, fun q k hk => ?_⟩, fun l i hl hi => ⟨hl.sublist (List.take_sublist i l), fun e he => List.mem_of_mem_take he, by simp [hi]⟩⟩
  · by_cases h : q.edge.etype = 0
    · simp [h]
    · by_cases h1 : q.edge.etype = 1 <;> simp [h, h1]
  · simp [h]
  · exact WithTop.add_lt_top.mpr ⟨ht, ENat.natCast_lt_top 1⟩
  · cases hk; decide
  · cases hk; decide

end

end Verif
