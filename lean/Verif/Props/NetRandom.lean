import Verif.NetFed
import Verif.Props.Net5
import Verif.Props.AnyNet

/-!
# Property C96: the law of the ways agents take

`N.fed ω` is the network `N` in which the calls of `uniform()` return `ω 0`, `ω 1`, ...; under `unifLaw` these are
independent and uniform on `[0, 1)`. All other random input (arrival and service times) is fixed but arbitrary; so the
statements are about conditional probabilities given those.
-/

set_option linter.unusedSectionVars false

namespace Verif.NetSpec

open MeasureTheory Set
open scoped ENNReal

variable {T : Type*} [LinearOrder T] [OrderTop T] [Zero T]

section Any

variable {R : Type*} [LinearOrder R] [Add R]

/-- In the next event agent `a`, not a GreedyAgent, ends its service at queue `k` and is sent to queue `e`: it goes there
or, if `e` is full, is held back. -/
def Sent (N : NetCfg T R) (n : Net T R) (k : Nat) (a : Agent T) (e : Nat) : Prop :=
  a.kind ≠ .greedy ∧ Wants N n k a e ∧ ∃ n', n.simulate N 1 = .ok n' ∧ (Moves n n' k e a ∨ Blocked n n' k e a)

theorem _root_.Verif.NetCfg.Ok.fed {N : NetCfg T R} (h : N.Ok) (ω : ℕ → R) : (N.fed ω).Ok :=
  ⟨h.idx, h.kinds, h.fwd, h.out, h.outLt, h.jit⟩

theorem _root_.Verif.NetCfg.OkA.fed {N : NetCfg T R} (h : N.OkA) (ω : ℕ → R) : (N.fed ω).OkA :=
  ⟨h.idx, h.fwd, h.out, h.outLt, h.jit⟩

theorem _root_.Verif.NetInvA.fed {N : NetCfg T R} {b : Nat → Bool} {n : Net T R} (h : NetInvA N b n) (ω : ℕ → R) :
    NetInvA (N.fed ω) b n :=
  ⟨⟨h.good, h.num, h.node, h.ge, h.clk, h.tau, h.probs, h.pend, h.noTop, h.dead⟩, h.heap, h.fresh⟩

theorem _root_.Verif.NetInv.fed {N : NetCfg T R} {b : Nat → Bool} {n : Net T R} (h : NetInv N b n) (ω : ℕ → R) :
    NetInv (N.fed ω) b n :=
  have fs : (N.fed ω).FinSvc → N.FinSvc := fun h => ⟨h.svc, h.jit, h.servers, h.buffer⟩
  have ni : (N.fed ω).NoInf → N.NoInf := fun h => h.elim (fun h => .inl (fs h)) .inr
  ⟨⟨h.good, h.num, h.node, h.ge, h.clk, h.tau, h.probs, fun g => h.pend (ni g), fun g => h.noTop (ni g),
    fun g => h.dead (ni g), fun g => h.findep (fs g)⟩, h.heap, h.fresh⟩

theorem steps_inv {N : NetCfg T R} (hN : N.OkA) {b : Nat → Bool} (m : Nat) {n n' : Net T R} (h : NetInvA N b n)
    (hi : n.initialized = true) (hs : Net.steps N m n = .ok n') :
    NetInvA N b n' ∧ n'.initialized = true ∧ n'.probs = n.probs := by
  induction m generalizing n with
  | zero => simp only [Net.steps, Except.ok.injEq] at hs; subst hs; exact ⟨h, hi, rfl⟩
  | succ m ih =>
    rw [Net.steps] at hs
    rcases step_specA hN h hi with ⟨n1, g1, g2, g3⟩ | ⟨g1, -⟩
    · rw [g1] at hs
      have hsame : n1.initialized = n.initialized ∧ n1.probs = n.probs := by
        cases g2 with
        | empty _ h1 => rw [h1]; exact ⟨rfl, rfl⟩
        | idle _ _ _ _ _ _ _ _ _ h1 => rw [h1]; exact ⟨rfl, rfl⟩
        | arrive _ _ _ _ _ _ _ _ _ _ _ _ _ _ h1 => exact ⟨h1.init, h1.probs⟩
        | block _ _ _ _ _ _ _ _ _ _ _ _ _ _ _ _ _ _ _ _ _ _ h1 => exact ⟨h1.init, h1.probs⟩
        | move _ _ _ _ _ _ _ _ _ _ _ _ _ _ _ _ _ _ _ _ _ _ _ h1 => exact ⟨h1.init, h1.probs⟩
      obtain ⟨a1, a2, a3⟩ := ih g3 (hsame.1.trans hi) hs
      exact ⟨a1, a2, a3.trans hsame.2⟩
    · rw [g1] at hs; simp at hs

theorem sent_of_wants {N : NetCfg T R} (hN : N.OkA) {b : Nat → Bool} {n : Net T R} (h : NetInvA N b n)
    (hin : n.initialized = true) {k e : Nat} {a : Agent T} (hg : a.kind ≠ .greedy) (hw : Wants N n k a e) :
    Sent N n k a e := by
  refine ⟨hg, hw, ?_⟩
  obtain ⟨ht, d, hd⟩ := hw
  obtain ⟨⟨hs, g, x, hp⟩, hk, hdep, hhead⟩ := ht
  have hnext : ∀ k', Next n k' → k' = k := by
    rintro k' ⟨-, g', x', hp'⟩
    rw [hp] at hp'
    simp only [Option.some.injEq, Prod.mk.injEq] at hp'
    exact hp'.2.2.symm
  rcases step_specA hN h hin with ⟨n1, g1, g2, g3⟩ | ⟨-, -, g1⟩
  · refine ⟨n1, by rw [simulate_one, if_pos hin, g1], ?_⟩
    cases g2 with
    | empty h0 => exact absurd h0 hs
    | idle k' x' h' h1 h2 h3 h4 h5 h6 h7 =>
      rw [hp] at h6
      simp only [Option.some.injEq, Prod.mk.injEq] at h6
      obtain ⟨-, -, rfl⟩ := h6
      rcases desc_casesA (h.good k hk) with ⟨c1, -⟩ | ⟨c1, -⟩ | ⟨-, -, -, c4, -⟩
      · omega
      · omega
      · rw [h3] at c4; exact absurd c4 (lt_irrefl _)
    | arrive k' s' h1 h2 h3 h4 h5 h6 => rw [hnext k' h2] at h6; omega
    | block k' e' a' s1 d' h1 h2 h3 h4 h5 h6 h7 h8 h9 h10 h11 h12 h13 h14 h15 =>
      right
      obtain rfl := hnext k' h2
      have ha : a' = a := by
        have := h12.head; rw [hhead] at this; simp at this; exact this.symm
      subst ha
      rw [hd] at h9
      simp only [Except.ok.injEq, Prod.mk.injEq] at h9
      obtain ⟨rfl, rfl⟩ := h9
      obtain ⟨rest, q1, q2⟩ := h12.deps
      have e1 : n1.qs e = { n.qs e with numBlocked := (n.qs e).numBlocked + 1 } := by
        rw [h13, Function.update_of_ne (Ne.symm h4), Function.update_self]
      have e2 : n1.qs k' = s1 := by rw [h13, Function.update_self]
      refine ⟨q1.mem_iff.mpr (by simp), Ne.symm h4, ?_, ?_, ?_,
        rest, _, q1, by rw [e2]; exact q2, by rw [e2]; exact h12.same.2.1, by rw [e2]; exact h12.same.1⟩
      · intro j j1 j2; rw [h13, Function.update_of_ne j1, Function.update_of_ne j2]
      · rw [e1]
      · rw [e1]
    | move k' e' a' a2 s1 s2 d' h1 h2 h3 h4 h5 h6 h7 h8 h9 h10 h11 h12 h13 h14 =>
      left
      obtain rfl := hnext k' h2
      have ha : a' = a := by
        have := h10.head; rw [hhead] at this; simp at this; exact this.symm
      subst ha
      rw [hd] at h8
      simp only [Except.ok.injEq, Prod.mk.injEq] at h8
      obtain ⟨rfl, rfl⟩ := h8
      obtain ⟨q1, q2, q3', q3, ext, gone, q4, q5, -, -, q6, q7⟩ :=
        event_of_moveA h10 h11 (null_of_goodA h h3 h4) h12
      refine ⟨q1, q2, q3', q3, ext.map (·.id), gone.map (·.id), by simpa using q4, by simpa using q5, ?_, ?_⟩
      · intro he; rwa [Function.update_of_ne he] at q7
      · intro he
        subst he
        rw [Function.update_self] at q7
        refine q7.trans (List.Perm.append_left _ ?_)
        have hid := h10.ids.1
        have haid : a2.id = a'.id := by rw [h10.same]
        rw [haid] at hid
        exact hid.symm
  · exact absurd hp (g1 g (x, k))

/-- After `m` events agent number `y` has been sent along `l`: the list of the queues it left and of those it was sent
to. (An agent that was held back is sent again later.) -/
inductive Journey (N : NetCfg T R) (n0 : Net T R) (y : Nat × Nat) : Nat → List (Nat × Nat) → Prop
  | start : Journey N n0 y 0 []
  | other {m : Nat} {l : List (Nat × Nat)} {n : Net T R} : Journey N n0 y m l → n0.simulate N m = .ok n →
      (∀ k a e, Sent N n k a e → a.id ≠ y) → Journey N n0 y (m + 1) l
  | sent {m : Nat} {l : List (Nat × Nat)} {n : Net T R} {k e : Nat} {a : Agent T} : Journey N n0 y m l →
      n0.simulate N m = .ok n → Sent N n k a e → a.id = y → Journey N n0 y (m + 1) (l ++ [(k, e)])

end Any

theorem sim_inv {N : NetCfg T ℝ} (hN : N.OkA) {b : Nat → Bool} {n0 : Net T ℝ} (h : NetReach N b n0)
    (hin : n0.initialized = true) {ω : ℕ → ℝ} {m : Nat} {n : Net T ℝ} (hs : n0.simulate (N.fed ω) m = .ok n) :
    NetInvA (N.fed ω) b n ∧ n.initialized = true ∧ n.probs = n0.probs := by
  rw [Net.simulate, if_pos hin] at hs
  exact steps_inv (hN.fed ω) m ((h.invA hN).fed ω) hin hs

theorem sent_iff {N : NetCfg T ℝ} (hN : N.OkA) {b : Nat → Bool} {n0 : Net T ℝ} (h : NetReach N b n0)
    (hin : n0.initialized = true) {ω : ℕ → ℝ} {m : Nat} {n : Net T ℝ} (hs : n0.simulate (N.fed ω) m = .ok n)
    {k e : Nat} {a : Agent T} :
    Sent (N.fed ω) n k a e ↔ a.kind ≠ .greedy ∧ Turn N n k a ∧
      agentDest (N.outEdges (N.qc k).edge.tgt) (n0.probs (N.qc k).edge.tgt) (ω n.unifCalls) = .ok e := by
  obtain ⟨h1, h2, h3⟩ := sim_inv hN h hin hs
  have hdest : a.kind ≠ .greedy → ((∃ d, n.destination (N.fed ω) k a = .ok (e, d)) ↔
      agentDest (N.outEdges (N.qc k).edge.tgt) (n0.probs (N.qc k).edge.tgt) (ω n.unifCalls) = .ok e) := by
    intro hg
    rw [destination_plain hg, h3]
    simp only [NetCfg.fed]
    cases agentDest (N.outEdges (N.qc k).edge.tgt) (n0.probs (N.qc k).edge.tgt) (ω n.unifCalls) <;> simp
  constructor
  · rintro ⟨hg, ⟨ht, hd⟩, -⟩
    exact ⟨hg, Turn.fed.mp ht, (hdest hg).mp hd⟩
  · rintro ⟨hg, ht, hd⟩
    exact sent_of_wants (hN.fed ω) h1 h2 hg ⟨Turn.fed.mpr ht, (hdest hg).mpr hd⟩

/-- The probabilities that belong to the out-edges of a vertex: as many as out-edges, not negative, of sum 1. -/
structure Law (out : List Nat) (pr : List ℝ) : Prop where
  nodup : out.Nodup
  len : pr.length = out.length
  nonneg : ∀ x ∈ pr, 0 ≤ x
  sum : pr.sum = 1

/-- The chance of an out-edge. -/
def chance (out : List Nat) (pr : List ℝ) (e : Nat) : ℝ≥0∞ := ENNReal.ofReal ((pr[out.idxOf e]?).getD 0)

theorem dest_law {out : List Nat} {pr : List ℝ} (hl : Law out pr) {e : Nat} (he : e ∈ out) :
    unif01 {u | agentDest out pr u = .ok e} = chance out pr e := by
  have hi : out.idxOf e < out.length := List.idxOf_lt_length_iff.mpr he
  by_cases hlen : out.length ≤ 1
  · obtain ⟨x, rfl⟩ : ∃ x, out = [x] := List.length_eq_one_iff.mp (by omega)
    obtain ⟨p, rfl⟩ : ∃ p, pr = [p] := List.length_eq_one_iff.mp hl.len
    simp only [List.mem_singleton] at he
    subst he
    have h1 := hl.sum
    simp only [List.sum_singleton] at h1
    simp [agentDest, chance, h1]
  · have h2 := RoutingSpec.C31_distribution pr (by rw [hl.len]; omega) hl.nonneg hl.sum (out.idxOf e) (by rw [hl.len]; exact hi)
    have h3 : chance out pr e = ENNReal.ofReal (pr[out.idxOf e]'(by rw [hl.len]; exact hi)) := by
      unfold chance
      rw [List.getElem?_eq_getElem (by rw [hl.len]; exact hi)]
      rfl
    rw [h3, ← h2, unif01, Measure.restrict_apply ((discrete_dest out pr).meas _)]
    congr 1
    ext u
    simp only [mem_inter_iff, mem_ofPred_eq]
    rw [and_comm, hl.len]
    refine and_congr_right fun _ => ?_
    unfold agentDest
    rw [if_neg hlen]
    constructor
    · intro h
      cases hc : choice pr u out.length with
      | error x => rw [hc] at h; simp at h
      | ok j =>
        rw [hc] at h
        simp only at h
        cases hj : out[j]? with
        | none => rw [hj] at h; simp at h
        | some w =>
          rw [hj] at h
          simp only [Except.ok.injEq] at h
          subst h
          obtain ⟨hj1, hj2⟩ := List.getElem?_eq_some_iff.mp hj
          rw [← hj2, hl.nodup.idxOf_getElem]
    · intro h
      rw [h]
      simp [List.getElem?_eq_getElem hi]

/-- C96: whatever has happened in the first `m` events, an agent that is about to leave a queue ending at vertex `v` is
sent to out-edge `e` with the probability given for `e`. -/
theorem C96_next {N : NetCfg T ℝ} (hN : N.OkA) {b : Nat → Bool} {n0 : Net T ℝ} (h : NetReach N b n0)
    (hin : n0.initialized = true) {v : Nat} (hl : Law (N.outEdges v) (n0.probs v)) {e : Nat} (he : e ∈ N.outEdges v)
    (m : Nat) (S : List (Except DestErr (Net T ℝ) × Option (Nat × Agent T × Nat)) → Net T ℝ → Nat → Agent T → Prop) :
    unifLaw {ω | ∃ n k a, n0.simulate (N.fed ω) m = .ok n ∧ S (story (N.fed ω) n0 m) n k a ∧
        (N.qc k).edge.tgt = v ∧ Sent (N.fed ω) n k a e} =
      unifLaw {ω | ∃ n k a, n0.simulate (N.fed ω) m = .ok n ∧ S (story (N.fed ω) n0 m) n k a ∧
        (N.qc k).edge.tgt = v ∧ a.kind ≠ .greedy ∧ Turn N n k a} * chance (N.outEdges v) (n0.probs v) e := by
  let SS : Set (Tale T) := {s | ∃ n k a, s.2.2 = .ok n ∧ S s.2.1 n k a ∧ (N.qc k).edge.tgt = v ∧ a.kind ≠ .greedy ∧
    Turn N n k a}
  have key := (netMachine_ok N).next (n0.unifCalls, [], .ok n0) m SS
    (fun _ => {u | agentDest (N.outEdges v) (n0.probs v) u = .ok e}) (fun _ => (discrete_dest _ _).meas _) _
    (fun _ _ => dest_law hl he)
  refine Eq.trans (congrArg unifLaw (Set.ext fun ω => ?_)) (key.trans (congrArg (· * _) (congrArg unifLaw (Set.ext fun ω => ?_))))
  · obtain ⟨r1, r2⟩ := machine_run N n0 hin ω m
    simp only [mem_ofPred_eq, SS, r1]
    constructor
    · rintro ⟨n, k, a, g1, g2, g3, g4⟩
      rw [sent_iff hN h hin g1, g3] at g4
      refine ⟨⟨n, k, a, g1, g2, g3, g4.1, g4.2.1⟩, ?_⟩
      have := r2 n g1
      simp only [netMachine] at this ⊢
      rw [this]
      exact g4.2.2
    · rintro ⟨⟨n, k, a, g1, g2, g3, g4, g5⟩, g6⟩
      refine ⟨n, k, a, g1, g2, g3, ?_⟩
      rw [sent_iff hN h hin g1, g3]
      refine ⟨g4, g5, ?_⟩
      have := r2 n g1
      simp only [netMachine] at this g6
      rw [this] at g6
      exact g6
  · obtain ⟨r1, -⟩ := machine_run N n0 hin ω m
    simp only [mem_ofPred_eq, SS, r1]

/-- The queues that agent number `y` left and those it was sent to, read off the story. -/
def told (y : Nat × Nat) (s : List (Except DestErr (Net T ℝ) × Option (Nat × Agent T × Nat))) : List (Nat × Nat) :=
  s.filterMap fun x => x.2.bind fun w => if w.2.1.id = y ∧ w.2.1.kind ≠ .greedy then some (w.1, w.2.2) else none

theorem story_succ (N : NetCfg T ℝ) (n : Net T ℝ) (m : Nat) :
    story N n (m + 1) = story N n m ++ [(n.simulate N m, wishOf N (n.simulate N m))] := by
  simp only [story, List.range_succ (n := m), List.map_append, List.map_cons, List.map_nil]

theorem simulate_pred {N : NetCfg T ℝ} {n n' : Net T ℝ} {m : Nat} (h : n.simulate N (m + 1) = .ok n') :
    ∃ n1, n.simulate N m = .ok n1 ∧ n1.step N = .ok n' := by
  unfold Net.simulate at h ⊢
  split at h
  · rename_i hi
    rw [if_pos hi]
    rw [steps_succ'] at h
    cases hm : Net.steps N m n with
    | error e => rw [hm] at h; simp at h
    | ok n1 => rw [hm] at h; exact ⟨n1, rfl, h⟩
  · simp at h

theorem journey_iff {N : NetCfg T ℝ} (hN : N.OkA) {b : Nat → Bool} {n0 : Net T ℝ} (h : NetReach N b n0)
    (hin : n0.initialized = true) {ω : ℕ → ℝ} {y : Nat × Nat} {m : Nat} {l : List (Nat × Nat)} :
    Journey (N.fed ω) n0 y m l ↔ (∀ i < m, ∃ n, n0.simulate (N.fed ω) i = .ok n) ∧ told y (story (N.fed ω) n0 m) = l := by
  have hw : ∀ {m : Nat} {n : Net T ℝ}, n0.simulate (N.fed ω) m = .ok n → ∀ {k a e}, a.kind ≠ .greedy →
      (Sent (N.fed ω) n k a e ↔ wishOf (N.fed ω) (n0.simulate (N.fed ω) m) = some (k, a, e)) := by
    intro m n hs k a e hg
    rw [hs, wishOf, wish_iff]
    obtain ⟨h1, h2, -⟩ := sim_inv hN h hin hs
    exact ⟨fun h => h.2.1, sent_of_wants (hN.fed ω) h1 h2 hg⟩
  induction m generalizing l with
  | zero =>
    constructor
    · intro hj; cases hj; simp [story, told]
    · rintro ⟨-, rfl⟩; exact .start
  | succ m ih =>
    rw [story_succ]
    constructor
    · intro hj
      cases hj with
      | other h1 h2 h3 =>
        obtain ⟨g1, g2⟩ := ih.mp h1
        refine ⟨fun i hi => ?_, ?_⟩
        · rcases Nat.lt_succ_iff_lt_or_eq.mp hi with h | rfl
          · exact g1 i h
          · exact ⟨_, h2⟩
        · rw [told, List.filterMap_append]
          rw [told] at g2
          rw [g2]
          cases hwo : wishOf (N.fed ω) (n0.simulate (N.fed ω) m) with
          | none => simp
          | some w =>
            obtain ⟨k, a, e⟩ := w
            by_cases hg : a.kind = .greedy
            · simp [hg]
            · have := h3 k a e ((hw h2 hg).mpr hwo)
              simp [this]
      | sent h1 h2 h3 h4 =>
        obtain ⟨g1, g2⟩ := ih.mp h1
        refine ⟨fun i hi => ?_, ?_⟩
        · rcases Nat.lt_succ_iff_lt_or_eq.mp hi with h | rfl
          · exact g1 i h
          · exact ⟨_, h2⟩
        · rw [told, List.filterMap_append]
          rw [told] at g2
          rw [g2, (hw h2 h3.1).mp h3]
          simp [h4, h3.1]
    · rintro ⟨h1, h2⟩
      obtain ⟨n, hn⟩ := h1 m (by omega)
      rw [told, List.filterMap_append] at h2
      have hj := ih.mpr ⟨fun i hi => h1 i (by omega), rfl⟩
      by_cases hs : ∃ k a e, Sent (N.fed ω) n k a e ∧ a.id = y
      · obtain ⟨k, a, e, hs, hid⟩ := hs
        have := (hw hn hs.1).mp hs
        rw [this] at h2
        simp only [List.filterMap_cons, Option.bind_some, hid, hs.1, not_false_eq_true, and_self, if_true, ne_eq, List.filterMap_nil] at h2
        rw [← h2]
        exact .sent hj hn hs hid
      · push Not at hs
        have : List.filterMap (fun x : Except DestErr (Net T ℝ) × Option (Nat × Agent T × Nat) => x.2.bind fun w =>
            if w.2.1.id = y ∧ w.2.1.kind ≠ .greedy then some (w.1, w.2.2) else none)
            [(n0.simulate (N.fed ω) m, wishOf (N.fed ω) (n0.simulate (N.fed ω) m))] = [] := by
          cases hwo : wishOf (N.fed ω) (n0.simulate (N.fed ω) m) with
          | none => simp
          | some w =>
            obtain ⟨k, a, e⟩ := w
            by_cases hg : a.kind = .greedy
            · simp [hg]
            · have := hs k a e ((hw hn hg).mpr hwo)
              simp [this]
        rw [this, List.append_nil] at h2
        rw [← h2]
        exact .other hj hn hs

theorem told_prefix {N : NetCfg T ℝ} {n0 : Net T ℝ} {y : Nat × Nat} {m m' : Nat} (h : m ≤ m') :
    told y (story N n0 m) <+: told y (story N n0 m') := by
  induction m', h using Nat.le_induction with
  | base => exact List.prefix_rfl
  | succ m' _ ih =>
    rw [story_succ, told, told, List.filterMap_append]
    exact ih.trans (List.prefix_append _ _)

theorem simulate_before {N : NetCfg T ℝ} {n0 n : Net T ℝ} {m : Nat} (h : n0.simulate N m = .ok n) :
    ∀ i ≤ m, ∃ n', n0.simulate N i = .ok n' := by
  induction m generalizing n with
  | zero => intro i hi; obtain rfl : i = 0 := by omega
            exact ⟨n, h⟩
  | succ m ih =>
    intro i hi
    obtain ⟨n1, h1, -⟩ := simulate_pred h
    rcases Nat.le_succ_iff.mp hi with h2 | rfl
    · exact ih h1 i h2
    · exact ⟨n, h⟩

/-- After journey `l` agent number `y` is about to leave queue `k`. -/
def About (N : NetCfg T ℝ) (n0 : Net T ℝ) (y : Nat × Nat) (l : List (Nat × Nat)) (k m : Nat) : Set (ℕ → ℝ) :=
  {ω | ∃ n a, n0.simulate (N.fed ω) m = .ok n ∧ Journey (N.fed ω) n0 y m l ∧ a.id = y ∧ a.kind ≠ .greedy ∧ Turn N n k a}

/-- C96: the journeys of an agent. After journey `l` an agent that is about to leave queue `k` is sent to `e` with the
probability given for `e`, whatever `l` was. -/
theorem C96_journey {N : NetCfg T ℝ} (hN : N.OkA) {b : Nat → Bool} {n0 : Net T ℝ} (h : NetReach N b n0)
    (hin : n0.initialized = true) {k : Nat} (hl : Law (N.outEdges (N.qc k).edge.tgt) (n0.probs (N.qc k).edge.tgt))
    {e : Nat} (he : e ∈ N.outEdges (N.qc k).edge.tgt) (y : Nat × Nat) (l : List (Nat × Nat)) :
    unifLaw {ω | ∃ m, Journey (N.fed ω) n0 y m (l ++ [(k, e)])} =
      unifLaw {ω | ∃ m n a, n0.simulate (N.fed ω) m = .ok n ∧ Journey (N.fed ω) n0 y m l ∧ a.id = y ∧
        a.kind ≠ .greedy ∧ Turn N n k a} * chance (N.outEdges (N.qc k).edge.tgt) (n0.probs (N.qc k).edge.tgt) e := by
  have hjour : ∀ {ω m n}, n0.simulate (N.fed ω) m = .ok n →
      (Journey (N.fed ω) n0 y m l ↔ told y (story (N.fed ω) n0 m) = l) := by
    intro ω m n hs
    rw [journey_iff hN h hin]
    exact ⟨fun h => h.2, fun g => ⟨fun i hi => simulate_before hs i hi.le, g⟩⟩
  -- the events
  let A : ℕ → Set (ℕ → ℝ) := About N n0 y l k
  let B : ℕ → Set (ℕ → ℝ) := fun m =>
    {ω | ∃ n a, n0.simulate (N.fed ω) m = .ok n ∧ Journey (N.fed ω) n0 y m l ∧ a.id = y ∧ Sent (N.fed ω) n k a e}
  have hBA : ∀ m, B m ⊆ A m := by
    rintro m ω ⟨n, a, g1, g2, g3, g4⟩
    exact ⟨n, a, g1, g2, g3, g4.1, Turn.fed.mp g4.2.1.1⟩
  have hAB : ∀ m, unifLaw (B m) = unifLaw (A m) * chance (N.outEdges (N.qc k).edge.tgt) (n0.probs (N.qc k).edge.tgt) e := by
    intro m
    have key := C96_next hN h hin hl he m fun s _ k' a => told y s = l ∧ a.id = y ∧ k' = k
    convert key using 2
    · ext ω
      constructor
      · rintro ⟨n, a, g1, g2, g3, g4⟩
        exact ⟨n, k, a, g1, ⟨(hjour g1).mp g2, g3, rfl⟩, rfl, g4⟩
      · rintro ⟨n, k', a, g1, ⟨g2, g3, rfl⟩, -, g4⟩
        exact ⟨n, a, g1, (hjour g1).mpr g2, g3, g4⟩
    · congr 1
      ext ω
      constructor
      · rintro ⟨n, a, g1, g2, g3, g4, g5⟩
        exact ⟨n, k, a, g1, ⟨(hjour g1).mp g2, g3, rfl⟩, rfl, g4, g5⟩
      · rintro ⟨n, k', a, g1, ⟨g2, g3, rfl⟩, -, g4, g5⟩
        exact ⟨n, a, g1, (hjour g1).mpr g2, g3, g4, g5⟩
  have hAm : ∀ m, MeasurableSet (A m) := by
    intro m
    have hd := ((netMachine_ok N).discrete (n0.unifCalls, [], .ok n0) m).set
      {s | ∃ n a, s.2.2 = .ok n ∧ told y s.2.1 = l ∧ a.id = y ∧ a.kind ≠ .greedy ∧ Turn N n k a}
    convert hd using 1
    ext ω
    obtain ⟨r1, -⟩ := machine_run N n0 hin ω m
    simp only [mem_ofPred_eq, r1, A, About]
    constructor
    · rintro ⟨n, a, g1, g2, g3⟩; exact ⟨n, a, g1, (hjour g1).mp g2, g3⟩
    · rintro ⟨n, a, g1, g2, g3⟩; exact ⟨n, a, g1, (hjour g1).mpr g2, g3⟩
  have hBm : ∀ m, MeasurableSet (B m) := by
    intro m
    have hd := ((netMachine_ok N).discrete (n0.unifCalls, [], .ok n0) (m + 1)).set
      {s | ∃ pre n a, s.2.1 = pre ++ [(.ok n, some (k, a, e))] ∧ told y pre = l ∧ a.id = y ∧ a.kind ≠ .greedy}
    convert hd using 1
    ext ω
    obtain ⟨r1, -⟩ := machine_run N n0 hin ω (m + 1)
    simp only [mem_ofPred_eq, r1, B]
    rw [story_succ]
    constructor
    · rintro ⟨n, a, g1, g2, g3, g4⟩
      refine ⟨_, n, a, ?_, (hjour g1).mp g2, g3, g4.1⟩
      rw [g1, wishOf, wish_iff.mpr g4.2.1]
    · rintro ⟨pre, n, a, g1, g2, g3, g4⟩
      obtain ⟨q1, q2⟩ := List.append_inj' g1 rfl
      simp only [List.cons.injEq, Prod.mk.injEq, and_true] at q2
      obtain ⟨q2, q3⟩ := q2
      rw [q2, wishOf, wish_iff] at q3
      obtain ⟨i1, i2, -⟩ := sim_inv hN h hin q2
      exact ⟨n, a, q2, (hjour q2).mpr (q1 ▸ g2), g3, sent_of_wants (hN.fed ω) i1 i2 g4 q3⟩
  have hdisj : Pairwise (Function.onFun Disjoint A) := by
    have hlt : ∀ m m' ω, m < m' → ω ∈ A m → ω ∈ A m' → False := by
      rintro m m' ω hmm ⟨n, a, g1, g2, g3, g4, g5⟩ ⟨n', a', f1, f2, -⟩
      obtain ⟨i1, i2, -⟩ := sim_inv hN h hin g1
      obtain ⟨e', d, hd⟩ : ∃ e' d, n.destination (N.fed ω) k a = .ok (e', d) := by
        rcases desc_casesA (i1.good k g5.inside) with ⟨c1, -⟩ | ⟨c1, -⟩ | ⟨-, c2, -⟩
        · have := g5.dep; simp only [NetCfg.fed] at c1; omega
        · have := g5.dep; simp only [NetCfg.fed] at c1; omega
        · obtain ⟨e', d, h1, -⟩ := destination_okA (hN.fed ω) i1.probs g5.inside c2 a
          exact ⟨e', d, h1⟩
      have hs := sent_of_wants (hN.fed ω) i1 i2 g4 ⟨Turn.fed.mpr g5, d, hd⟩
      have hj := (journey_iff hN h hin).mp (Journey.sent g2 g1 hs g3)
      have hp := told_prefix (N := N.fed ω) (n0 := n0) (y := y) (Nat.succ_le_of_lt hmm)
      rw [Nat.succ_eq_add_one, hj.2, ((journey_iff hN h hin).mp f2).2] at hp
      have := hp.length_le
      simp at this
    intro m m' hmm
    refine Set.disjoint_left.mpr fun ω h1 h2 => ?_
    rcases Nat.lt_or_gt_of_ne hmm with hh | hh
    · exact hlt m m' ω hh h1 h2
    · exact hlt m' m ω hh h2 h1
  have hdB : Pairwise (Function.onFun Disjoint B) := fun m m' hmm => (hdisj hmm).mono (hBA m) (hBA m')
  have eA : {ω | ∃ m n a, n0.simulate (N.fed ω) m = .ok n ∧ Journey (N.fed ω) n0 y m l ∧ a.id = y ∧
        a.kind ≠ .greedy ∧ Turn N n k a} = ⋃ m, A m := by
    ext ω; simp only [mem_ofPred_eq, mem_iUnion, A, About]
  have eB : {ω | ∃ m, Journey (N.fed ω) n0 y m (l ++ [(k, e)])} = ⋃ m, B m := by
    ext ω
    simp only [mem_ofPred_eq, mem_iUnion, B]
    constructor
    · rintro ⟨m, hm⟩
      generalize hL : l ++ [(k, e)] = L at hm
      induction hm with
      | start => simp at hL
      | other _ _ _ ih => exact ih hL
      | @sent m l' n k' e' a' h1 h2 h3 h4 _ =>
        obtain ⟨q1, q2⟩ := List.append_inj' hL rfl
        simp only [List.cons.injEq, Prod.mk.injEq, and_true] at q2
        obtain ⟨rfl, rfl⟩ := q2
        subst q1
        exact ⟨m, n, a', h2, h1, h4, h3⟩
    · rintro ⟨m, n, a, g1, g2, g3, g4⟩
      exact ⟨m + 1, .sent g2 g1 g4 g3⟩
  rw [eA, eB, measure_iUnion hdB hBm, measure_iUnion hdisj hAm, ← ENNReal.tsum_mul_right]
  exact tsum_congr hAB

/-- The product of the probabilities along a journey. -/
noncomputable def weight (N : NetCfg T ℝ) (n0 : Net T ℝ) (l : List (Nat × Nat)) : ℝ≥0∞ :=
  (l.map fun s => chance (N.outEdges (N.qc s.1).edge.tgt) (n0.probs (N.qc s.1).edge.tgt) s.2).prod

/-- C96: the chance that an agent makes journey `l` (and perhaps goes on) is at most the product of the probabilities. -/
theorem C96_product_le {N : NetCfg T ℝ} (hN : N.OkA) {b : Nat → Bool} {n0 : Net T ℝ} (h : NetReach N b n0)
    (hin : n0.initialized = true) (y : Nat × Nat) (l : List (Nat × Nat))
    (hl : ∀ s ∈ l, Law (N.outEdges (N.qc s.1).edge.tgt) (n0.probs (N.qc s.1).edge.tgt) ∧
      s.2 ∈ N.outEdges (N.qc s.1).edge.tgt) :
    unifLaw {ω | ∃ m, Journey (N.fed ω) n0 y m l} ≤ weight N n0 l := by
  induction l using List.reverseRecOn with
  | nil => simpa [weight] using prob_le_one
  | append_singleton l s ih =>
    obtain ⟨k, e⟩ := s
    obtain ⟨h1, h2⟩ := hl (k, e) (by simp)
    rw [C96_journey hN h hin h1 h2]
    have := ih fun s hs => hl s (by simp [hs])
    simp only [weight, List.map_append, List.prod_append, List.map_cons, List.map_nil, List.prod_cons, List.prod_nil,
      mul_one]
    refine mul_le_mul_left (le_trans (measure_mono ?_) this) _
    rintro ω ⟨m, n, a, -, g, -⟩
    exact ⟨m, g⟩

/-- C96: it is the product, if after each part of the journey the agent surely is about to leave the next queue of it. -/
theorem C96_product {N : NetCfg T ℝ} (hN : N.OkA) {b : Nat → Bool} {n0 : Net T ℝ} (h : NetReach N b n0)
    (hin : n0.initialized = true) (y : Nat × Nat) (l : List (Nat × Nat))
    (hl : ∀ s ∈ l, Law (N.outEdges (N.qc s.1).edge.tgt) (n0.probs (N.qc s.1).edge.tgt) ∧
      s.2 ∈ N.outEdges (N.qc s.1).edge.tgt)
    (hsure : ∀ l' k e, l' ++ [(k, e)] <+: l → ∀ ω m, Journey (N.fed ω) n0 y m l' →
      ∃ m' n a, n0.simulate (N.fed ω) m' = .ok n ∧ Journey (N.fed ω) n0 y m' l' ∧ a.id = y ∧ a.kind ≠ .greedy ∧
        Turn N n k a) :
    unifLaw {ω | ∃ m, Journey (N.fed ω) n0 y m l} = weight N n0 l := by
  induction l using List.reverseRecOn with
  | nil =>
    have : {ω : ℕ → ℝ | ∃ m, Journey (N.fed ω) n0 y m []} = univ := by
      ext ω; simp only [mem_ofPred_eq, mem_univ, iff_true]; exact ⟨0, .start⟩
    rw [this, measure_univ]; simp [weight]
  | append_singleton l s ih =>
    obtain ⟨k, e⟩ := s
    obtain ⟨h1, h2⟩ := hl (k, e) (by simp)
    rw [C96_journey hN h hin h1 h2]
    have := ih (fun s hs => hl s (by simp [hs])) fun l' k e hp => hsure l' k e (hp.trans (List.prefix_append _ _))
    simp only [weight, List.map_append, List.prod_append, List.map_cons, List.map_nil, List.prod_cons, List.prod_nil,
      mul_one] at this ⊢
    rw [← this]
    congr 2
    ext ω
    constructor
    · rintro ⟨m, n, a, -, g, -⟩; exact ⟨m, g⟩
    · rintro ⟨m, g⟩
      obtain ⟨m', n, a, q⟩ := hsure l k e List.prefix_rfl ω m g
      exact ⟨m', n, a, q⟩

/-! A fair coin: the demonstration network with probability 1/2 for both out-edges of vertex 1. -/

/-- The demonstration network with real draws and a ResourceQueue instead of its LossQueue. -/
noncomputable def tossNet : NetCfg ℕ∞ ℝ where
  nE := demoNet.nE
  qc k := if k = 1 then { demoNet.qc k with kind := .resource } else demoNet.qc k
  outEdges := demoNet.outEdges
  maxAgents := demoNet.maxAgents
  unif _ := 0
  jit := demoNet.jit
  garbage := demoNet.garbage

noncomputable def tossProbs (v : Nat) : List ℝ := if v = 1 then [1 / 2, 1 / 2] else [1]

noncomputable def tossAt (m : Nat) : Net ℕ∞ ℝ :=
  resNet tossNet (fun _ => true) true tossProbs (.initialise (fun l _ => l) (.queues [0, 2]) :: List.replicate m .step)

theorem tossNet_ok : tossNet.OkA where
  idx k hk := by rw [tossNet]; dsimp only; split_ifs <;> exact demoNet_ok.idx k hk
  fwd k hk := by
    obtain ⟨h1, h2⟩ := demoNet_ok.fwd k hk
    rw [tossNet]; dsimp only; split_ifs <;> exact ⟨h1, h2⟩
  out := by decide
  outLt := by decide
  jit := demoNet_ok.jit

theorem tossProbs_ok : ∀ v, (tossProbs v).length = (tossNet.outEdges v).length := by
  intro v
  match v with
  | 0 | 1 | 2 => simp [tossProbs, tossNet, demoNet]
  | _ + 3 => simp [tossProbs, tossNet, demoNet]

theorem tossAt_reach (m : Nat) : NetReach tossNet (fun _ => true) (tossAt m) := reachNet _ _ _ _ _ tossProbs_ok

theorem tossAt_step : (tossAt 0).simulate tossNet 1 = .ok (tossAt 1) :=
  resNet_step (ops := [.initialise (fun l _ => l) (.queues [0, 2])]) (by decide +kernel)

theorem toss_pop : ((tossAt 0).heap.pop.map (·.2)) = some (some (2, 0)) := by decide +kernel

theorem tossAt_step_fed (ω : ℕ → ℝ) : (tossAt 0).simulate (tossNet.fed ω) 1 = .ok (tossAt 1) := by
  have hi : (tossAt 0).initialized = true := by decide +kernel
  have hno : ¬ Asks tossNet (tossAt 0) := by
    rintro ⟨k, a, ht, -⟩
    obtain ⟨-, h, x, hp⟩ := ht.next
    have := toss_pop
    rw [hp] at this
    simp only [Option.map_some, Option.some.injEq, Prod.mk.injEq] at this
    obtain ⟨-, rfl⟩ := this
    have hd := ht.dep
    revert hd
    decide +kernel
  have h := tossAt_step
  rw [simulate_one, if_pos hi] at h ⊢
  rw [step_fed, step_unused hno _ 0]
  exact h

theorem toss_turn : Turn tossNet (tossAt 1) 0 ⟨(0, 0), 3, 0, .plain⟩ := by
  have hp : ((tossAt 1).heap.pop.map (·.2)) = some (some (3, 0)) := by decide +kernel
  refine ⟨⟨by decide +kernel, ?_⟩, by decide +kernel, by decide +kernel, by decide +kernel⟩
  cases hq : (tossAt 1).heap.pop with
  | none => rw [hq] at hp; simp at hp
  | some r =>
    rw [hq] at hp
    simp only [Option.map_some, Option.some.injEq] at hp
    exact ⟨r.1, 3, by rw [← hp]⟩

theorem toss_law : Law (tossNet.outEdges 1) ((tossAt 0).probs 1) := by
  have : (tossAt 0).probs 1 = [1 / 2, 1 / 2] := by
    have h : (tossAt 0).probs = tossProbs := rfl
    rw [h]; simp [tossProbs]
  rw [this]
  exact ⟨by decide +kernel, rfl, by simp, by norm_num⟩

/-- In this network the first agent goes to queue 1 with probability 1/2. -/
example : unifLaw {ω | ∃ m, Journey (tossNet.fed ω) (tossAt 0) (0, 0) m [(0, 1)]} = 1 / 2 := by
  have hi : (tossAt 0).initialized = true := by decide +kernel
  have htgt : (tossNet.qc 0).edge.tgt = 1 := rfl
  have key := C96_product tossNet_ok (tossAt_reach 0) hi (0, 0) [(0, 1)]
    (by simp only [List.mem_singleton, forall_eq, htgt]; exact ⟨toss_law, by decide +kernel⟩) ?_
  · rw [key]
    have : (tossAt 0).probs 1 = [1 / 2, 1 / 2] := by
      have h : (tossAt 0).probs = tossProbs := rfl
      rw [h]; simp [tossProbs]
    have ho : tossNet.outEdges 1 = [1, 2] := rfl
    simp only [weight, List.map_cons, List.map_nil, List.prod_cons, List.prod_nil, mul_one, htgt, this, ho, chance,
      List.idxOf_cons_self, List.getElem?_cons_zero, Option.getD_some]
    rw [ENNReal.ofReal_div_of_pos (by norm_num)]
    simp
  · intro l' k e hp ω m hj
    obtain ⟨t, ht⟩ := hp
    cases l' with
    | cons x l' => have := congrArg List.length ht; simp at this
    | nil =>
      simp only [List.nil_append, List.cons_append, List.cons.injEq, Prod.mk.injEq] at ht
      obtain ⟨⟨rfl, -⟩, -⟩ := ht
      refine ⟨1, tossAt 1, _, tossAt_step_fed ω, ?_, rfl, by simp, toss_turn⟩
      have h0 : (tossAt 0).simulate (tossNet.fed ω) 0 = .ok (tossAt 0) := by rw [Net.simulate, if_pos hi]; rfl
      refine .other .start h0 fun k a e hs => ?_
      have ht := Turn.fed.mp hs.2.1.1
      obtain ⟨-, h, x, hp⟩ := ht.next
      have := toss_pop
      rw [hp] at this
      simp only [Option.map_some, Option.some.injEq, Prod.mk.injEq] at this
      obtain ⟨-, rfl⟩ := this
      exact absurd ht.dep (by decide +kernel)

/-! ## C97: agents that are held back -/

/-- C97: after an agent was held back at queue `k` on its way to `e₀`, it is sent to `e` at its next attempt with the same
probability as if it had never tried `e₀`. -/
theorem C97_anew {N : NetCfg T ℝ} (hN : N.OkA) {b : Nat → Bool} {n0 : Net T ℝ} (h : NetReach N b n0)
    (hin : n0.initialized = true) {k : Nat} (hl : Law (N.outEdges (N.qc k).edge.tgt) (n0.probs (N.qc k).edge.tgt))
    {e : Nat} (he : e ∈ N.outEdges (N.qc k).edge.tgt) (y : Nat × Nat) (l : List (Nat × Nat)) (e₀ : Nat) :
    unifLaw {ω | ∃ m, Journey (N.fed ω) n0 y m (l ++ [(k, e₀), (k, e)])} =
      unifLaw {ω | ∃ m n a, n0.simulate (N.fed ω) m = .ok n ∧ Journey (N.fed ω) n0 y m (l ++ [(k, e₀)]) ∧ a.id = y ∧
        a.kind ≠ .greedy ∧ Turn N n k a} * chance (N.outEdges (N.qc k).edge.tgt) (n0.probs (N.qc k).edge.tgt) e := by
  have := C96_journey hN h hin hl he y (l ++ [(k, e₀)])
  rwa [List.append_assoc] at this

/-- C97: with one out-edge an agent has no choice: it tries the same queue again. -/
theorem C97_one_way {R : Type*} [LinearOrder R] [Add R] {N : NetCfg T R} (hN : N.OkA) {b : Nat → Bool} {n : Net T R}
    (h : NetReach N b n) {k e e₀ : Nat} {a : Agent T} (hout : N.outEdges (N.qc k).edge.tgt = [e₀])
    (hs : Wants N n k a e) : e = e₀ := by
  obtain ⟨ht, d, hd⟩ := hs
  have hi := h.invA hN
  rcases desc_casesA (hi.good k ht.inside) with ⟨c1, -⟩ | ⟨c1, -⟩ | ⟨-, c2, -⟩
  · rw [ht.dep] at c1; omega
  · rw [ht.dep] at c1; omega
  · have := mem_outA hN hi ht.inside c2 hd
    rw [hout] at this
    simpa using this

/-- The demonstration network under either blocking policy. -/
abbrev heldAt (bas : Bool) (m : Nat) : Net ℕ∞ Nat := resNet demoNet (fun _ => true) bas demoProbs (demoRun m)

/-- C97: under 'BAS' agent (0, 1) is held back at the LossQueue 1 in event 5. In event 12, when queue 1 is empty, it goes
to queue 2 instead, and it was never at queue 1 in between. -/
theorem C97_gives_up_bas :
    (∀ m, NetReach demoNet (fun _ => true) (heldAt true m)) ∧
    (∀ m < 12, (heldAt true m).simulate demoNet 1 = .ok (heldAt true (m + 1))) ∧
    ((heldAt true 4).qs 1).numBlocked = 0 ∧ ((heldAt true 5).qs 1).numBlocked = 1 ∧
    ((heldAt true 4).qs 0).departures.head? = some (.agent ⟨(0, 1), 5, 0, .plain⟩) ∧
    (∃ a, ((heldAt true 11).qs 0).departures.head? = some (.agent a) ∧ a.id = (0, 1) ∧ a.blocked = 1) ∧
    presentIds ((heldAt true 11).qs 1) = [] ∧ (0, 1) ∈ presentIds ((heldAt true 12).qs 2) ∧
    ∀ m ≤ 12, (0, 1) ∉ presentIds ((heldAt true m).qs 1) := by
  refine ⟨fun m => reachNet _ _ _ _ _ demoProbs_ok, fun m hm => ?_, by decide +kernel, by decide +kernel,
    by decide +kernel, ⟨⟨(0, 1), 11, 1, .plain⟩, by decide +kernel, rfl, rfl⟩, by decide +kernel, by decide +kernel,
    by decide +kernel⟩
  have h : ∀ m < 12, (runNet demoNet (Net.init demoNet (fun _ => true) true demoProbs) (demoRun (m + 1))).isSome = true := by
    decide +kernel
  have := h m hm
  rw [demoRun_succ] at this
  rw [heldAt, heldAt, demoRun_succ]
  exact resNet_step this

/-- C97: the same under 'RS': held back in event 5, at queue 2 after event 7. -/
theorem C97_gives_up_rs :
    (∀ m, NetReach demoNet (fun _ => true) (heldAt false m)) ∧
    (∀ m < 7, (heldAt false m).simulate demoNet 1 = .ok (heldAt false (m + 1))) ∧
    ((heldAt false 4).qs 1).numBlocked = 0 ∧ ((heldAt false 5).qs 1).numBlocked = 1 ∧
    ((heldAt false 4).qs 0).departures.head? = some (.agent ⟨(0, 1), 5, 0, .plain⟩) ∧
    (∃ a, ((heldAt false 6).qs 0).departures.head? = some (.agent a) ∧ a.id = (0, 1) ∧ a.blocked = 1) ∧
    (0, 1) ∈ presentIds ((heldAt false 7).qs 2) ∧
    ∀ m ≤ 7, (0, 1) ∉ presentIds ((heldAt false m).qs 1) := by
  refine ⟨fun m => reachNet _ _ _ _ _ demoProbs_ok, fun m hm => ?_, by decide +kernel, by decide +kernel,
    by decide +kernel, ⟨⟨(0, 1), 6, 1, .plain⟩, by decide +kernel, rfl, rfl⟩, by decide +kernel,
    by decide +kernel⟩
  have h : ∀ m < 7, (runNet demoNet (Net.init demoNet (fun _ => true) false demoProbs) (demoRun (m + 1))).isSome = true := by
    decide +kernel
  have := h m hm
  rw [demoRun_succ] at this
  rw [heldAt, heldAt, demoRun_succ]
  exact resNet_step this

end Verif.NetSpec
