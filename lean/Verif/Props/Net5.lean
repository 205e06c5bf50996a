import Verif.Props.Net4
import Verif.Props.GraphNet

/-! # Property C74: how agents travel through a network -/

set_option linter.unusedSectionVars false
set_option linter.unusedVariables false

namespace Verif.NetSpec

open GSpec

variable {T R : Type*} [LinearOrder T] [OrderTop T] [Zero T] [LinearOrder R] [Add R]

/-- The number of agents waiting at queue `d`; nobody ever waits at a NullQueue. -/
def waiting (N : NetCfg T R) (n : Net T R) (d : Nat) : Nat :=
  if (N.qc d).kind = .null then 0 else (n.qs d).queue.length

/-- The destination rule, for out-edges `out`, probabilities `pr` and random number `u`. A GreedyAgent takes the
first out-edge with the fewest waiting agents. Any other agent takes the only out-edge if there is just one, and
otherwise the first one at which the running sum of the probabilities is at least `u`; the last one if there is no
such out-edge. -/
def Picks (N : NetCfg T R) (n : Net T R) (a : Agent T) (out : List Nat) (pr : List R) (u : R) (e : Nat) : Prop :=
  if a.kind = .greedy then
    ∃ before after, out = before ++ e :: after ∧ (∀ d ∈ before, waiting N n e < waiting N n d) ∧
      ∀ d ∈ after, waiting N n e ≤ waiting N n d
  else out = [e] ∨ ∃ p ps i, pr = p :: ps ∧ out[i]? = some e ∧
    (∀ j < i, (ps.take j).foldl (· + ·) p < u) ∧
    (u ≤ (ps.take i).foldl (· + ·) p ∨ i + 1 = out.length)

theorem picks {N : NetCfg T R} (hN : N.OkA) {n : Net T R}
    (hp : ∀ v, (n.probs v).length = (N.outEdges v).length) {k : Nat} (hk : k < N.nE)
    (hs : (N.qc k).kind ≠ .null) {a : Agent T} {e d : Nat} (h : n.destination N k a = .ok (e, d)) :
    Picks N n a (N.outEdges (N.qc k).edge.tgt) (n.probs (N.qc k).edge.tgt) (N.unif n.unifCalls) e ∧
    d = (if a.kind = .greedy ∨ (N.outEdges (N.qc k).edge.tgt).length ≤ 1 then 0 else 1) := by
  have hout := hN.out k hk hs
  have hpl := hp (N.qc k).edge.tgt
  unfold Net.destination at h
  simp only at h
  generalize N.outEdges (N.qc k).edge.tgt = out at *
  generalize n.probs (N.qc k).edge.tgt = pr at *
  generalize N.unif n.unifCalls = u at *
  have plain : a.kind ≠ .greedy → (match agentDest out pr u with
      | .error e => .error e
      | .ok e => .ok (e, if out.length ≤ 1 then 0 else 1) : Except DestErr (Nat × Nat)) = .ok (e, d) →
      Picks N n a out pr u e ∧ d = (if a.kind = .greedy ∨ out.length ≤ 1 then 0 else 1) := by
    intro hg h
    unfold Picks
    rw [if_neg hg]
    cases hd : agentDest out pr u with
    | error x => rw [hd] at h; simp at h
    | ok e' =>
      rw [hd] at h
      simp only [Except.ok.injEq, Prod.mk.injEq] at h
      obtain ⟨rfl, rfl⟩ := h
      refine ⟨?_, by simp [hg]⟩
      unfold agentDest at hd
      match out, hout, hpl, hd with
      | [x], _, _, hd => simp at hd; left; rw [hd]
      | x :: y :: l, _, hpl, hd =>
        right
        rw [if_neg (by simp)] at hd
        match pr, hpl, hd with
        | p :: q :: ps, hpl, hd =>
          rw [← hpl] at hd
          obtain ⟨i, c1, c2, c3, c4⟩ := RoutingSpec.C31_least_index p (q :: ps) u (by simp)
          rw [c1] at hd
          refine ⟨p, q :: ps, i, rfl, ?_, c3, by rw [← hpl]; exact c4⟩
          cases hi : (x :: y :: l)[i]? with
          | none => simp only [hi] at hd; simp at hd
          | some w => simp only [hi, Except.ok.injEq] at hd; rw [hd]
  cases hkind : a.kind with
  | greedy =>
    simp only [hkind] at h
    obtain ⟨before, e', after, c1, c2, c3, c4⟩ := RoutingSpec.C33_first_shortest_line out
      (fun d => numberQueued (N.qc d) (n.qs d)) hout
    rw [c2] at h
    simp only [Except.ok.injEq, Prod.mk.injEq] at h
    obtain ⟨rfl, rfl⟩ := h
    refine ⟨?_, by simp⟩
    unfold Picks
    rw [if_pos hkind]
    exact ⟨before, after, c1, c3, c4⟩
  | plain => rw [hkind] at plain; simp only [hkind] at h; exact plain (by simp) h
  | resource _ _ => rw [hkind] at plain; simp only [hkind] at h; exact plain (by simp) h

/-- C74: after `simulate(n=1)` an agent that was not at queue `e` before is there only if it has just been created
as the next outside arrival of `e`, or it was the next agent to depart from some queue `k`, its departure was due
before any arrival at `k`, and queue `e` is the out-edge of the vertex at the end of edge `k` that the destination
rule gives for the transition probabilities of this vertex and the next random number. -/
theorem C74_travel {N : NetCfg T R} (hN : N.OkA) {b : Nat → Bool} {n n' : Net T R}
    (h : NetReach N b n) (hr : n.simulate N 1 = .ok n') {e : Nat} (he : e < N.nE) {x : Nat × Nat}
    (hx : x ∈ presentIds (n'.qs e)) (hx' : x ∉ presentIds (n.qs e)) :
    x = (e, (n.qs e).oArrivals) ∨
    ∃ k < N.nE, k ≠ e ∧ ∃ a, (n.qs k).departures.head? = some (.agent a) ∧ a.id = x ∧ a.time = n'.t ∧
      headTime (n.qs k).departures < headTime (n.qs k).arrivals ∧
      e ∈ N.outEdges (N.qc k).edge.tgt ∧
      Picks N n a (N.outEdges (N.qc k).edge.tgt) (n.probs (N.qc k).edge.tgt) (N.unif n.unifCalls) e ∧
      (n'.qs k).numDepartures = (n.qs k).numDepartures + 1 := by
  have hi := h.invA hN
  obtain ⟨-, hs⟩ := step_of_simulateA hN h hr
  cases hs with
  | empty _ h1 => rw [h1] at hx; exact absurd hx hx'
  | idle _ _ _ _ _ _ _ _ _ h1 => rw [h1] at hx; exact absurd hx hx'
  | arrive k s' h1 h2 h3 h4 h5 h6 h7 h8 h9 h10 =>
    left
    obtain ⟨m1, m2, m3, m4, m5, m6⟩ := maybeInactive_same ((n.qs k).active && n.maxed N) (n.qs k)
    obtain ⟨ext, gone, g1, g2, g3, g4, g5, g6, g7, -⟩ := h7.out.ids
    rw [setInactive_ids] at g1
    by_cases hk : e = k
    · subst hk
      rw [h8, Function.update_self] at hx
      have := g1.mem_iff.mp (List.mem_append.mpr (.inl hx))
      rcases List.mem_append.mp this with hm | hm
      · obtain ⟨y, hy, rfl⟩ := List.mem_map.mp hm
        rw [g3 y hy, m5, hN.idx e h1]
      · exact absurd hm hx'
    · rw [h8, Function.update_of_ne hk] at hx; exact absurd hx hx'
  | block k e2 a s1 d h1 h2 h3 h4 h5 h6 h7 h8 h9 h10 h11 h12 h13 h14 h15 =>
    exfalso
    by_cases hk : e = k
    · subst hk
      rw [h13, Function.update_self] at hx
      exact hx' (h12.ids.mem_iff.mp hx)
    · rw [h13, Function.update_of_ne hk] at hx
      by_cases hk2 : e = e2
      · subst hk2; rw [Function.update_self] at hx; exact hx' hx
      · rw [Function.update_of_ne hk2] at hx; exact hx' hx
  | move k e2 a a' s1 s2 d h1 h2 h3 h4 h5 h6 h7 h8 h9 h10 h11 h12 h13 h14 =>
    obtain ⟨g1, g2, gd, g3, ext, gone, g4, g5, g6, g6', g7, g8⟩ :=
      event_of_moveA h10 h11 (null_of_goodA hi h3 h4) h12
    have hlt : headTime (n.qs k).departures < headTime (n.qs k).arrivals := by
      by_contra hc
      rw [nextEventDescription, if_neg h4, if_neg hc] at h7
      split at h7 <;> simp at h7
    have haid : a'.id = a.id := by rw [h10.same]
    have hids := h10.ids.1
    rw [haid] at hids
    by_cases hk2 : e = e2
    · subst hk2
      have := g8.mem_iff.mp (List.mem_append.mpr (.inl hx))
      rcases List.mem_append.mp this with hm | hm
      · left
        obtain ⟨y, hy, rfl⟩ := List.mem_map.mp hm
        rw [g6 y hy, hN.idx e h3]
      · by_cases hk : e = k
        · subst hk
          rw [Function.update_self] at hm
          exact absurd (hids.mem_iff.mpr hm) hx'
        · rw [Function.update_of_ne hk] at hm
          rcases List.mem_cons.mp hm with hm | hm
          · right
            refine ⟨k, h1, Ne.symm hk, a, h10.head, hm.symm, by rw [h14, ← h10.time, h10.same], hlt,
              mem_outA hN hi h1 h4 h8, (picks hN hi.probs h1 h4 h8).1, gd⟩
          · exact absurd hm hx'
    · rw [h12, Function.update_of_ne hk2] at hx
      by_cases hk : e = k
      · subst hk
        rw [Function.update_self] at hx
        exact absurd (hids.mem_iff.mpr (List.mem_cons_of_mem _ hx)) hx'
      · rw [Function.update_of_ne hk] at hx; exact absurd hx hx'

/-- C74: an agent held back because queue `e` is full (`num_blocked` of `e` changes though nobody is lost there)
was on its way to `e` by the same rule. -/
theorem C74_held_back {N : NetCfg T R} (hN : N.OkA) {b : Nat → Bool} {n n' : Net T R}
    (h : NetReach N b n) (hr : n.simulate N 1 = .ok n') {e : Nat} (he : e < N.nE)
    (hgrow : (n'.qs e).numBlocked ≠ (n.qs e).numBlocked) (hlost : (n'.qs e).lost = (n.qs e).lost) :
    ∃ k < N.nE, k ≠ e ∧ ∃ a, (n.qs k).departures.head? = some (.agent a) ∧ a.time = n'.t ∧
      e ∈ N.outEdges (N.qc k).edge.tgt ∧
      Picks N n a (N.outEdges (N.qc k).edge.tgt) (n.probs (N.qc k).edge.tgt) (N.unif n.unifCalls) e ∧
      (n'.qs k).numDepartures = (n.qs k).numDepartures := by
  have hi := h.invA hN
  obtain ⟨k, hk, hke, a, d, g1, g2, -⟩ := C48_blocked_only_if_full hN h hr he hgrow hlost
  have hs : (N.qc k).kind ≠ .null := by
    rcases hi.good k hk with hg | hg
    · exact hg.1
    · have := g2.first; rw [hg.2.2.2.2.2.2] at this; simp at this
  exact ⟨k, hk, hke, a, g2.first, g2.clock.symm, mem_outA hN hi hk hs g1, (picks hN hi.probs hk hs g1).1,
    g2.stay.2.2.2.2.1⟩

/-- In the demonstration network agent `(0, 0)` moves from queue 0 to queue 1 in the second event. -/
example : ∃ n n' : Net ℕ∞ Nat, demoNet.Ok ∧ NetReach demoNet (fun _ => true) n ∧ n.simulate demoNet 1 = .ok n' ∧
    (0, 0) ∈ presentIds (n'.qs 1) ∧ (0, 0) ∉ presentIds (n.qs 1) :=
  ⟨demoAt 1, demoAt 2, demoNet_ok, demoAt_reach 1, demoAt_step 1 (by decide +kernel), by decide +kernel,
    by decide +kernel⟩

/-- In `rentNet` agent `(0, 0)` moves from the ResourceQueue 1 to queue 2 in the sixth event, and the agent of queue 0
is held back at the ResourceQueue in the seventh. -/
example : NetReach rentNet (fun _ => true) (rentAt 5) ∧ (rentAt 5).simulate rentNet 1 = .ok (rentAt 6) ∧
    (0, 0) ∈ presentIds ((rentAt 6).qs 2) ∧ (0, 0) ∉ presentIds ((rentAt 5).qs 2) ∧
    (rentAt 6).simulate rentNet 1 = .ok (rentAt 7) ∧
    ((rentAt 7).qs 1).numBlocked ≠ ((rentAt 6).qs 1).numBlocked ∧ ((rentAt 7).qs 1).lost = ((rentAt 6).qs 1).lost :=
  ⟨rentAt_reach 5, resNet_step (ops := .initialise (fun l _ => l) (.queues [0]) :: List.replicate 5 .step) (by decide +kernel),
    by decide +kernel, by decide +kernel,
    resNet_step (ops := .initialise (fun l _ => l) (.queues [0]) :: List.replicate 6 .step) (by decide +kernel),
    by decide +kernel, by decide +kernel⟩

/-- C74, for networks made from graphs: an agent newly at the queue of an edge `e`, unless just created there, comes
from the queue of an edge that ends at the vertex where `e` begins. So agents follow directed paths of the graph. -/
theorem C74_path {A B C : Type*} [EmptyCollection A] [EmptyCollection B] {g : QGraph A} (hg : Built g)
    {given dflt : Dict Int C} {args : Dict Int (QArgs B)} {cap : Option (Nat → Option Nat)} {m : Made A C B}
    (hm : makeNetwork g given dflt args cap true = .ok m)
    {mk : QSpec C B → QCfg T} (hmk : ∀ q, (mk q).edge = q.edge)
    (hnull : ∀ q, q.edge.etype = 0 → (mk q).kind = .null)
    (hfwd : ∀ q, Forward (mk q)) {none : QCfg T} {maxAgents : Cap} {unif : Nat → R} {jit : Nat → T → T}
    (hjit : ∀ i t, t ≤ jit i t) {garbage : Nat → Nat → T × Nat} {b : Nat → Bool} {n n' : Net T R}
    (h : NetReach (m.cfg mk none maxAgents unif jit garbage) b n)
    (hr : n.simulate (m.cfg mk none maxAgents unif jit garbage) 1 = .ok n') {e : Nat}
    (he : e < m.graph.adj.edges.length) {x : Nat × Nat}
    (hx : x ∈ presentIds (n'.qs e)) (hx' : x ∉ presentIds (n.qs e)) :
    x = (e, (n.qs e).oArrivals) ∨
    ∃ k u v w, Dict.get? m.graph.index (u, v) = some k ∧ Dict.get? m.graph.index (v, w) = some e ∧
      (v, w) ∈ m.graph.adj.edges ∧
      x ∈ presentIds (n.qs k) ∧ x ∉ presentIds (n'.qs k) := by
  have hN := C73_network_okA (R := R) hg hm hmk hnull hfwd (none := none) (maxAgents := maxAgents)
    (unif := unif) hjit (garbage := garbage)
  generalize hNN : m.cfg mk none maxAgents unif jit garbage = N at *
  have hnE : N.nE = m.graph.adj.edges.length := by rw [← hNN]; rfl
  have hnO : N.outEdges = m.out := by rw [← hNN]; rfl
  obtain ⟨-, -, hall⟩ := C66_queues hg hm
  rcases C74_travel hN h hr (hnE ▸ he) hx hx' with h1 | ⟨k, hk, hke, a, ha, hid, -, -, hout, -, -⟩
  · exact .inl h1
  · right
    obtain ⟨q, q1, q2, q3⟩ := hall k (hnE ▸ hk)
    have hqc : N.qc k = mk q := by
      rw [← hNN]
      simp only [Made.cfg, q1]
    rw [hqc, hmk, hnO] at hout
    obtain ⟨w, hw, hi⟩ := ((C73_out_edges hg hm q.edge.tgt).1 e).mp hout
    refine ⟨k, q.edge.src, q.edge.tgt, w, q3, hi, hw, ?_, ?_⟩
    · rw [← hid]
      unfold presentIds
      refine List.mem_append.mpr (.inr (List.mem_append.mpr (.inr (List.mem_map.mpr ⟨a, ?_, rfl⟩))))
      cases hd : (n.qs k).departures with
      | nil => rw [hd] at ha; simp at ha
      | cons y l => rw [hd] at ha; simp at ha; subst ha; simp [agents]
    · intro hc
      have hr' : NetReach N b n' := (C72_ids_not_reused hN 1 h (simulate_ok_init hr).1 hr).1
      have hnd := (C72_ids_distinct hN hr').1
      unfold everyone at hnd
      have hp := (List.nodup_flatMap.mp hnd).2
      have : Std.Symm (Function.onFun List.Disjoint fun k => presentIds (n'.qs k)) :=
        ⟨fun i j hij => List.Disjoint.symm hij⟩
      exact hp.forall (List.mem_range.mpr hk) (List.mem_range.mpr (hnE ▸ he)) hke hc hx

/-- The network made from `smallGraph` in `Props/GraphNet.lean`. -/
def smallM : Made Unit Kls Unit := match smallMade with | .ok m => m | .error _ => ⟨smallGraph, [], fun _ => []⟩

/-- Its queues: one server each, one time unit between arrivals and for each service. -/
def smallNet : NetCfg ℕ∞ Nat := smallM.cfg
  (fun q => ⟨if q.edge.etype = 0 then .null else .server, q.edge, .fin 1, fun _ t => t + 1, fun _ t => t + 1,
    .plain, .inf, ⊤, .inf, .inf⟩)
  ⟨.null, ⟨0, 0, 0, 0⟩, .fin 1, fun _ t => t, fun _ t => t, .plain, .inf, ⊤, .inf, .inf⟩
  .inf (fun _ => 0) (fun _ t => t) (fun _ _ => (0, 0))

/-- Its state after `initialize(queues=[0])` and `m` events. -/
def smallAt (m : Nat) : Net ℕ∞ Nat := resNet smallNet (fun _ => true) true
  (fun v => List.replicate (smallNet.outEdges v).length 0)
  (.initialise (fun l _ => l) (.queues [0]) :: List.replicate m .step)

/-- Agent `(0, 0)` moves from the edge `(0, 1)` to the edge `(1, 0)`. -/
example : smallMade = .ok smallM ∧ NetReach smallNet (fun _ => true) (smallAt 2) ∧
    (smallAt 2).simulate smallNet 1 = .ok (smallAt 3) ∧ Dict.get? smallM.graph.index (1, 0) = some 1 ∧
    (0, 0) ∈ presentIds ((smallAt 3).qs 1) ∧ (0, 0) ∉ presentIds ((smallAt 2).qs 1) :=
  ⟨rfl, reachNet _ _ _ _ _ (fun _ => List.length_replicate), resNet_step (ops := _ :: _) (by decide +kernel),
    by decide +kernel, by decide +kernel, by decide +kernel⟩

end Verif.NetSpec
