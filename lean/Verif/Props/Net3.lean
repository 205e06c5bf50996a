import Verif.Props.AnyNet
import Verif.NetProj

/-! # Properties C48-C52 of networks -/

set_option linter.unusedSectionVars false
set_option linter.unusedVariables false

namespace Verif.NetSpec

variable {T R : Type*} [LinearOrder T] [OrderTop T] [Zero T] [LinearOrder R] [Add R]

/-- `n'` results from holding back agent `a`, at the head of the departures of queue `k`, because queue `e` is
full: the agent stays in service until `x`; nothing else happens. -/
structure HeldBack (N : NetCfg T R) (n n' : Net T R) (k e : Nat) (a : Agent T) (x : T) : Prop where
  first : (n.qs k).departures.head? = some (.agent a)
  dest : n'.qs e = { n.qs e with numBlocked := (n.qs e).numBlocked + 1 }
  others : ∀ j, j ≠ k → j ≠ e → n'.qs j = n.qs j
  service : ∃ rest, (agents (n.qs k).departures).Perm (a :: rest) ∧
    (agents (n'.qs k).departures).Perm ({ a with time := x, blocked := a.blocked + 1 } :: rest)
  stay : (n'.qs k).arrivals = (n.qs k).arrivals ∧ (n'.qs k).queue = (n.qs k).queue ∧
    (n'.qs k).numTotal = (n.qs k).numTotal ∧ (n'.qs k).numSystem = (n.qs k).numSystem ∧
    (n'.qs k).numDepartures = (n.qs k).numDepartures ∧ (n'.qs k).log = (n.qs k).log ∧
    (n'.qs k).lost = (n.qs k).lost ∧ (n'.qs k).numBlocked = (n.qs k).numBlocked
  num : n'.numAgents = n.numAgents
  clock : n'.t = a.time

/-- The new departure time of a blocked agent: under BAS just after the first departure from the full queue
(`N.jit` adds a positive amount to it), under RS a new service time. -/
def retry (N : NetCfg T R) (n : Net T R) (k e : Nat) (a : Agent T) : T :=
  if n.bas then N.jit n.jitCalls (headTime (n.qs e).departures)
  else (N.qc k).serviceF (n.qs k).svcCalls a.time

theorem DelayEff.numDep {c : QCfg T} {s s' : QS T} {t : Option T} {a : Agent T} (h : DelayEff c s s' t a) :
    s'.numDepartures = s.numDepartures := by
  cases h.out with
  | none => rfl
  | some => rfl

theorem heldBack {N : NetCfg T R} {b : Nat → Bool} {n n' : Net T R} (hi : NetInvA N b n) {k e : Nat}
    {a : Agent T} {s1 : QS T} (h1 : k < N.nE) (h4 : k ≠ e) (h5 : (N.qc k).kind ≠ .null)
    (h8 : nextEventDescription (N.qc k) (n.qs k) = 2)
    (h12 : DelayEff (N.qc k) (n.qs k) s1
        (if n.bas then some (N.jit n.jitCalls (headTime (n.qs e).departures)) else none) a)
    (h13 : n'.qs = Function.update (Function.update n.qs e
        { n.qs e with numBlocked := (n.qs e).numBlocked + 1 }) k s1)
    (h14 : n'.numAgents = n.numAgents) (h15 : n'.t = (n.qs k).time) :
    HeldBack N n n' k e a (retry N n k e a) ∧ a.time = (n.qs k).time := by
  have e2 : n'.qs k = s1 := by rw [h13, Function.update_self]
  have ga : a.time = (n.qs k).time := by
    have hlt : headTime (n.qs k).departures < headTime (n.qs k).arrivals := by
      by_contra hc
      rw [nextEventDescription, if_neg h5, if_neg hc] at h8
      split at h8 <;> simp at h8
    have := (hi.good k h1).base.time
    rw [this, nextTime, min_eq_right hlt.le]
    have hh := h12.head
    cases hd : (n.qs k).departures with
    | nil => rw [hd] at hh; simp at hh
    | cons x l => rw [hd] at hh; simp at hh; subst hh; rfl
  obtain ⟨rest, g1, g2⟩ := h12.deps
  obtain ⟨q1, q2, q3, q4, q5, q6, q7, q8, q9, q10, q11⟩ := h12.same
  refine ⟨⟨h12.head, by rw [h13, Function.update_of_ne (Ne.symm h4), Function.update_self],
    fun j j1 j2 => by rw [h13, Function.update_of_ne j1, Function.update_of_ne j2], ⟨rest, g1, ?_⟩,
    ?_, h14, by rw [h15, ga]⟩, ga⟩
  · rw [e2]
    unfold retry
    cases hb : n.bas with
    | true => simpa [hb] using g2
    | false => simpa [hb] using g2
  · rw [e2]
    exact ⟨q1, q2, q4, q5, DelayEff.numDep h12, q8, q7, q11⟩

/-- C48: suppose that the next event of queue `k` is the departure of agent `a`, which wants to go to queue
`e`, a LossQueue at capacity different from `k`, and no other queue has an event that early. Then the next
event blocks `a`: it stays in service, and its departure moves to just after the next departure from `e` (BAS) or by
a new service time (RS). (The other possibility is the idle event of C45.) Under BAS the new departure is
not before that of `e`; under RS it is not before the present one. -/
theorem C48_blocking {N : NetCfg T R} (hN : N.OkA) {b : Nat → Bool} {n n' : Net T R}
    (h : NetReach N b n) (hr : n.simulate N 1 = .ok n') {k e d : Nat} (hk : k < N.nE) (hke : k ≠ e)
    (hmin : ∀ j < N.nE, j ≠ k → (n.qs k).time < (n.qs j).time) {a : Agent T}
    (hdep : headTime (n.qs k).departures < headTime (n.qs k).arrivals)
    (ha : (n.qs k).departures.head? = some (.agent a)) (hdest : n.destination N k a = .ok (e, d))
    (hfull : (N.qc e).kind = .loss ∧ ∃ s m : Int, (n.qs e).numServers = .fin s ∧ (N.qc e).buffer = .fin m ∧
      s + m ≤ (n.qs e).numSystem) :
    (HeldBack N n n' k e a (retry N n k e a) ∧
      (n.bas = true → headTime (n.qs e).departures ≤ retry N n k e a) ∧
      (n.bas = false → a.time ≤ retry N n k e a)) ∨ Same n n' := by
  have hi := h.invA hN
  have hs : (N.qc k).kind ≠ .null := by
    rcases hi.good k hk with hg | hg
    · exact hg.1
    · rw [hg.2.2.2.2.2.2] at hdep; simp [headTime, Slot.time] at hdep
  have hdesc : nextEventDescription (N.qc k) (n.qs k) = 2 := by
    rw [nextEventDescription, if_neg hs, if_pos hdep]
  have hcap : atCapacity (N.qc e) (n.qs e) = true := by
    obtain ⟨g1, s, m, g2, g3, g4⟩ := hfull
    unfold atCapacity
    rw [g1, g2, g3]
    simpa [Cap.add, Cap.lt] using g4
  have hlt : (n.qs k).time < ⊤ := by
    rw [(hi.good k hk).base.time, nextTime]
    exact (min_le_right _ _).trans_lt (hdep.trans_le le_top)
  have huniq : ∀ j < N.nE, (∀ i < N.nE, (n.qs j).time ≤ (n.qs i).time) → j = k := by
    intro j hj hle
    by_contra hne
    exact absurd (hle k hk) (not_le.mpr (hmin j hj hne))
  obtain ⟨-, hst⟩ := step_of_simulateA hN h hr
  cases hst with
  | empty h0 _ => exact absurd h0 (nonempty_of_eventA hi ⟨k, hk, hlt⟩)
  | idle k' x hp h1 h2 h3 h4 h5 h6 h7 =>
    right
    have hx : x = n.t := by
      rcases h4 with h4 | h4
      · exact h4
      · exact absurd (h5 k hk) (by rw [h4, top_le_iff]; exact hlt.ne)
    subst hx
    rw [h7]; exact ⟨rfl, rfl, rfl, rfl, rfl, rfl, rfl, rfl⟩
  | arrive k' s' h1 h2 h3 h4 h5 h6 h7 h8 h9 h10 =>
    rw [huniq k' h1 h5, hdesc] at h6
    exact absurd h6 (by decide)
  | block k' e' a' s1 d' h1 h2 h3 h4 h5 h6 h7 h8 h9 h10 h11 h12 h13 h14 h15 =>
    obtain rfl := huniq k' h1 h7
    have haa : a' = a := by
      have := h12.head; rw [ha] at this; simpa using this.symm
    subst haa
    rw [hdest] at h9
    simp only [Except.ok.injEq, Prod.mk.injEq] at h9
    obtain ⟨rfl, rfl⟩ := h9
    left
    refine ⟨(heldBack hi hk hke hs h8 h12 h13 h14 h15).1, fun hb => ?_, fun hb => ?_⟩
    · rw [retry, if_pos hb]; exact hN.jit _ _
    · rw [retry, if_neg (by simp [hb])]; exact (hN.fwd k' hk).2 _ _
  | move k' e' a' a'' s1 s2 d' h1 h2 h3 h4 h5 h6 h7 h8 h9 h10 h11 h12 h13 h14 =>
    obtain rfl := huniq k' h1 h6
    have haa : a' = a := by
      have := h10.head; rw [ha] at this; simpa using this.symm
    subst haa
    rw [hdest] at h8
    simp only [Except.ok.injEq, Prod.mk.injEq] at h8
    obtain ⟨rfl, rfl⟩ := h8
    exact absurd (h9 hcap).symm hke

/-- C48, converse: whenever the number of blocked agents of some queue grows without an agent being lost
there, an agent was held back in this way, and the queue was full. -/
theorem C48_blocked_only_if_full {N : NetCfg T R} (hN : N.OkA) {b : Nat → Bool} {n n' : Net T R}
    (h : NetReach N b n) (hr : n.simulate N 1 = .ok n') {e : Nat} (he : e < N.nE)
    (hgrow : (n'.qs e).numBlocked ≠ (n.qs e).numBlocked) (hlost : (n'.qs e).lost = (n.qs e).lost) :
    ∃ k < N.nE, k ≠ e ∧ ∃ a d, n.destination N k a = .ok (e, d) ∧ HeldBack N n n' k e a (retry N n k e a) ∧
      ((N.qc e).kind = .loss ∨ (N.qc e).kind = .resource) ∧ ∃ s m : Int, (n.qs e).numServers = .fin s ∧ (N.qc e).buffer = .fin m ∧
        s + m ≤ (n.qs e).numSystem := by
  have hi := h.invA hN
  have evb : ∀ s0 s' : QS T, EvA (N.qc e) s0 s' none → s'.lost = s0.lost → s'.numBlocked = s0.numBlocked := by
    intro s0 s' ho hlo
    cases ho with
    | resource g ho =>
      cases ho with
      | idle _ _ g => rw [g]
      | arr a rest _ _ _ _ e => exact e.numBlocked
      | block a rest _ _ _ _ _ e => have := e.lost; rw [hlo] at this; simp at this
      | deposit _ _ _ _ _ _ _ _ _ e => exact e
      | full _ _ _ _ _ _ _ _ _ _ _ e => rw [hlo] at e; simp at e
    | simple _ ho =>
      cases ho with
      | idle _ _ g => rw [g]
      | arr a rest _ _ _ e _ => exact e.numBlocked
      | block a rest _ _ _ _ e _ => have := e.lost; rw [hlo] at this; simp at this
  have depb : ∀ (s0 s' : QS T) (a a' : Agent T), DepEffA (N.qc e) s0 s' a a' → s'.numBlocked = s0.numBlocked := by
    intro s0 s' a a' hd
    cases hd.out with
    | resource g ho => cases ho with | dep _ _ _ g => exact g.numBlocked
    | simple _ ho => cases ho with | dep _ _ g _ => exact g.numBlocked
  have inb : ∀ (f : Bool) (s : QS T), (if f then setInactive s else s).numBlocked = s.numBlocked ∧
      (if f then setInactive s else s).lost = s.lost := by
    intro f s; cases f <;> exact ⟨rfl, rfl⟩
  obtain ⟨-, hst⟩ := step_of_simulateA hN h hr
  cases hst with
  | empty h0 h1 => rw [h1] at hgrow; exact absurd rfl hgrow
  | idle k' x hp h1 h2 h3 h4 h5 h6 h7 => rw [h7] at hgrow; exact absurd rfl hgrow
  | arrive k s' h1 h2 h3 h4 h5 h6 h7 h8 h9 h10 =>
    exfalso
    by_cases hek : e = k
    · subst hek
      rw [h8, Function.update_self] at hgrow hlost
      refine hgrow ?_
      rw [← (inb ((n.qs e).active && n.maxed N) (n.qs e)).1]
      refine evb _ _ h7.out ?_
      rw [hlost, (inb _ _).2]
    · rw [h8, Function.update_of_ne hek] at hgrow; exact hgrow rfl
  | block k e' a s1 d h1 h2 h3 h4 h5 h6 h7 h8 h9 h10 h11 h12 h13 h14 h15 =>
    have hee : e = e' := by
      by_contra hee
      by_cases hek : e = k
      · subst hek
        rw [h13, Function.update_self] at hgrow
        exact hgrow h12.same.2.2.2.2.2.2.2.2.2.2
      · rw [h13, Function.update_of_ne hek, Function.update_of_ne hee] at hgrow
        exact hgrow rfl
    subst hee
    refine ⟨k, h1, h4, a, d, h9, (heldBack hi h1 h4 h5 h8 h12 h13 h14 h15).1, h10, ?_⟩
    have h11 : ((n.qs e).numServers.add (N.qc e).buffer).lt (n.qs e).numSystem = false := by
      unfold atCapacity at h11
      rcases h10 with g | g <;> simpa [g] using h11
    cases hs : (n.qs e).numServers with
    | inf => simp [hs, Cap.add, Cap.lt] at h11
    | fin s =>
      cases hm : (N.qc e).buffer with
      | inf => simp [hs, hm, Cap.add, Cap.lt] at h11
      | fin m => exact ⟨s, m, rfl, rfl, by simpa [hs, hm, Cap.add, Cap.lt] using h11⟩
  | move k e' a a' s1 s2 d h1 h2 h3 h4 h5 h6 h7 h8 h9 h10 h11 h12 h13 h14 =>
    exfalso
    by_cases hee : e = e'
    · subst hee
      rw [h12, Function.update_self] at hgrow hlost
      have hb1 : (Function.update n.qs k s1 e).numBlocked = (n.qs e).numBlocked ∧
          (Function.update n.qs k s1 e).lost = (n.qs e).lost := by
        by_cases hek : e = k
        · subst hek; rw [Function.update_self]; exact ⟨depb _ _ _ _ h10, h10.ids.2.2.2.1⟩
        · rw [Function.update_of_ne hek]; exact ⟨rfl, rfl⟩
      have hadd : ∀ m, addArrivalAgent (N.qc e) (Function.update n.qs k s1 e) a' = .ok m →
          m.numBlocked = (n.qs e).numBlocked ∧ m.lost = (n.qs e).lost := by
        intro m hm
        rw [← hb1.1, ← hb1.2]
        unfold addArrivalAgent at hm
        split at hm
        · simp only [Except.ok.injEq] at hm
          rw [← hm]; split <;> exact ⟨rfl, rfl⟩
        · split at hm
          · simp at hm
          · simp only [Except.ok.injEq] at hm
            rw [← hm]; unfold bumpTime; exact ⟨rfl, rfl⟩
      cases h11 with
      | null m g1 g2 g3 g4 g5 =>
        rw [g5, (inb _ _).1] at hgrow; exact hgrow (hadd m g2).1
      | queue g1 g2 =>
        obtain ⟨q, a1, a2, a3, a4, a5, a6, a7, a8, a9, a10, a11, a12, a13⟩ := g2.mid
        refine hgrow ?_
        rw [← (hadd q a1).1, ← (inb (stopAt N n k e s1.numTotal q) q).1]
        refine evb _ _ a13.out ?_
        rw [hlost, (inb _ _).2, (hadd q a1).2]
    · by_cases hek : e = k
      · subst hek
        rw [h12, Function.update_of_ne hee, Function.update_self] at hgrow
        exact hgrow (depb _ _ _ _ h10)
      · rw [h12, Function.update_of_ne hee, Function.update_of_ne hek] at hgrow
        exact hgrow rfl

/-- Agent (0, 1) leaves queue 0 for queue 1, which is full, at time 5. -/
example : let a : Agent ℕ∞ := ⟨(0, 1), 5, 0, .plain⟩
    (∀ j < 5, j ≠ 0 → ((demoAt 4).qs 0).time < ((demoAt 4).qs j).time) ∧
    headTime ((demoAt 4).qs 0).departures < headTime ((demoAt 4).qs 0).arrivals ∧
    ((demoAt 4).qs 0).departures.head? = some (.agent a) ∧
    (match (demoAt 4).destination demoNet 0 a with
      | .ok (e, d) => decide (e = 1 ∧ d = 1)
      | _ => false) = true ∧
    (demoNet.qc 1).kind = .loss ∧ ((demoAt 4).qs 1).numServers = .fin 1 ∧ (demoNet.qc 1).buffer = .fin 0 ∧
    ((demoAt 4).qs 1).numSystem = 1 ∧ ((demoAt 5).qs 1).numBlocked = 1 ∧ ((demoAt 4).qs 1).numBlocked = 0 := by
  decide +kernel

/-- The demonstration network with a ResourceQueue in place of the LossQueue 1. -/
def stockNet : NetCfg ℕ∞ Nat :=
  { demoNet with qc := fun k => if k = 1 then { demoNet.qc k with kind := .resource } else demoNet.qc k }

theorem stockNet_ok : stockNet.OkA where
  idx k hk := by rw [stockNet]; dsimp only; split_ifs <;> exact demoNet_ok.idx k hk
  fwd k hk := by
    obtain ⟨h1, h2⟩ := demoNet_ok.fwd k hk
    rw [stockNet]; dsimp only; split_ifs <;> exact ⟨h1, h2⟩
  out := by decide
  outLt := by decide
  jit := demoNet_ok.jit

/-- State of `stockNet` after `m` events. -/
abbrev stockAt (m : Nat) : Net ℕ∞ Nat := resNet stockNet (fun _ => true) true demoProbs (demoRun m)

theorem stockAt_reach (m : Nat) : NetReach stockNet (fun _ => true) (stockAt m) := reachNet _ _ _ _ _ demoProbs_ok

/-- The same at a ResourceQueue. -/
example : let a : Agent ℕ∞ := ⟨(0, 1), 5, 0, .plain⟩
    (∀ j < 5, j ≠ 0 → ((stockAt 4).qs 0).time < ((stockAt 4).qs j).time) ∧
    headTime ((stockAt 4).qs 0).departures < headTime ((stockAt 4).qs 0).arrivals ∧
    ((stockAt 4).qs 0).departures.head? = some (.agent a) ∧
    (match (stockAt 4).destination stockNet 0 a with
      | .ok (e, d) => decide (e = 1 ∧ d = 1)
      | _ => false) = true ∧
    (stockNet.qc 1).kind = .resource ∧ ((stockAt 4).qs 1).numServers = .fin 1 ∧ (stockNet.qc 1).buffer = .fin 0 ∧
    ((stockAt 4).qs 1).numSystem = 1 ∧ ((stockAt 5).qs 1).numBlocked = 1 ∧ ((stockAt 4).qs 1).numBlocked = 0 ∧
    ((stockAt 5).qs 1).lost = [] := by
  decide +kernel

/-! ## C49 -/

/-- LossQueues have room for at least nobody: `num_servers + buffer` is not negative. -/
def RoomOk (N : NetCfg T R) : Prop :=
  ∀ k < N.nE, (N.qc k).kind = .loss → ((N.qc k).servers.add (N.qc k).buffer).le 0 = true

theorem _root_.Verif.DepEffA.simple {c : QCfg T} {s s' : QS T} {a a' : Agent T} (h : DepEffA c s s' a a') (hs : Simple c) :
    DepSpec c s s' a ∧ a' = a := by
  cases h.out with
  | resource g => exact absurd g hs.ne_res
  | simple _ ho =>
    cases ho with
    | dep _ _ g1 g2 =>
      have : a' = a := by have := h.head; rw [g2] at this; simpa using this
      exact ⟨this ▸ g1, this⟩

theorem evSimple {c : QCfg T} {s s' : QS T} {r : Option (Agent T)} (hl : c.kind ≠ .resource) (h : EvA c s s' r) :
    EvOut c s s' r := by
  cases h with
  | resource g => exact absurd g hl
  | simple _ ho => exact ho

theorem room_after {N : NetCfg T R} {n : Net T R}
    {k e : Nat} (hself : e = k → RoomInv (N.qc e) (n.qs e)) {a a' : Agent T} {s1 : QS T} (hl : (N.qc e).kind = .loss)
    (h9 : atCapacity (N.qc e) (n.qs e) = true → e = k) (h10 : DepEffA (N.qc k) (n.qs k) s1 a a') :
    ((Function.update n.qs k s1 e).numServers.add (N.qc e).buffer).lt
      (Function.update n.qs k s1 e).numSystem = true := by
  by_cases hek : e = k
  · subst hek
    obtain ⟨g, -⟩ := h10.simple (.inr hl)
    rw [Function.update_self, g.numServers, g.numSystem]
    have hroom := hself rfl
    unfold RoomInv at hroom
    cases hc : (n.qs e).numServers.add (N.qc e).buffer with
    | inf => rfl
    | fin m => rw [hc] at hroom; simp [Cap.le, Cap.lt] at hroom ⊢; omega
  · rw [Function.update_of_ne hek]
    by_contra hc
    refine hek (h9 ?_)
    unfold atCapacity
    rw [hl]
    simpa using hc

/-- C49, first part that holds: an agent on its way from queue `k` to queue `e` is admitted there (it waits or is in
service, nobody is lost), provided the next scheduled arrival at `e` is later than this and, if the agent returns to
the queue it leaves, that queue is not over its room (it is not, unless its number of servers was lowered:
`C49_fits`). Missing: the case of an arrival scheduled for exactly the same time, in which the agent may be lost
(`C49_lost_in_tie`). -/
theorem C49_admitted_partial {N : NetCfg T R} (hN : N.OkA) {b : Nat → Bool} {n n' : Net T R}
    (h : NetReach N b n) (hr : n.simulate N 1 = .ok n') {k e d : Nat} (hk : k < N.nE)
    (hmin : ∀ j < N.nE, j ≠ k → (n.qs k).time < (n.qs j).time) {a : Agent T}
    (hdep : headTime (n.qs k).departures < headTime (n.qs k).arrivals)
    (ha : (n.qs k).departures.head? = some (.agent a)) (hdest : n.destination N k a = .ok (e, d))
    (hkind : Simple (N.qc e)) (hroom : atCapacity (N.qc e) (n.qs e) = true → e = k)
    (hfit : e = k → (N.qc e).kind = .loss →
      ((n.qs e).numServers.add (N.qc e).buffer).le (n.qs e).numSystem = true)
    (hlater : a.time < headTime (n.qs e).arrivals) :
    ((n'.qs e).lost = (n.qs e).lost ∧ (n'.qs e).numArrivals = (n.qs e).numArrivals + 1 ∧
      a.id ∈ ((n'.qs e).queue ++ agents (n'.qs e).departures).map (·.id)) ∨ Same n n' := by
  have hi := h.invA hN
  have hs : (N.qc k).kind ≠ .null := by
    rcases hi.good k hk with hg | hg
    · exact hg.1
    · rw [hg.2.2.2.2.2.2] at hdep; simp [headTime, Slot.time] at hdep
  have hdesc : nextEventDescription (N.qc k) (n.qs k) = 2 := by
    rw [nextEventDescription, if_neg hs, if_pos hdep]
  have hlt : (n.qs k).time < ⊤ := by
    rw [(hi.good k hk).base.time, nextTime]
    exact (min_le_right _ _).trans_lt (hdep.trans_le le_top)
  have huniq : ∀ j < N.nE, (∀ i < N.nE, (n.qs j).time ≤ (n.qs i).time) → j = k := by
    intro j hj hle
    by_contra hne
    exact absurd (hle k hk) (not_le.mpr (hmin j hj hne))
  obtain ⟨-, hst⟩ := step_of_simulateA hN h hr
  cases hst with
  | empty h0 _ => exact absurd h0 (nonempty_of_eventA hi ⟨k, hk, hlt⟩)
  | idle k' x hp h1 h2 h3 h4 h5 h6 h7 =>
    right
    have hx : x = n.t := by
      rcases h4 with h4 | h4
      · exact h4
      · exact absurd (h5 k hk) (by rw [h4, top_le_iff]; exact hlt.ne)
    subst hx
    rw [h7]; exact ⟨rfl, rfl, rfl, rfl, rfl, rfl, rfl, rfl⟩
  | arrive k' s' h1 h2 h3 h4 h5 h6 h7 h8 h9 h10 =>
    rw [huniq k' h1 h5, hdesc] at h6
    exact absurd h6 (by decide)
  | block k' e' a' s1 d' h1 h2 h3 h4 h5 h6 h7 h8 h9 h10 h11 h12 h13 h14 h15 =>
    obtain rfl := huniq k' h1 h7
    have haa : a' = a := by
      have := h12.head; rw [ha] at this; simpa using this.symm
    subst haa
    rw [hdest] at h9
    simp only [Except.ok.injEq, Prod.mk.injEq] at h9
    obtain ⟨rfl, rfl⟩ := h9
    exact absurd (hroom h11).symm h4
  | move k' e' a' aa s1 s2 d' h1 h2 h3 h4 h5 h6 h7 h8 h9 h10 h11 h12 h13 h14 =>
    obtain rfl := huniq k' h1 h6
    have haa : a' = a := by
      have := h10.head; rw [ha] at this; simpa using this.symm
    subst haa
    rw [hdest] at h8
    simp only [Except.ok.injEq, Prod.mk.injEq] at h8
    obtain ⟨rfl, rfl⟩ := h8
    left
    have he : n'.qs e = s2 := by rw [h12, Function.update_self]
    have hq : (Function.update n.qs k' s1 e).lost = (n.qs e).lost ∧
        (Function.update n.qs k' s1 e).numArrivals = (n.qs e).numArrivals ∧
        (Function.update n.qs k' s1 e).arrivals = (n.qs e).arrivals := by
      by_cases hek : e = k'
      · subst hek
        rw [Function.update_self]
        obtain ⟨g, -⟩ := h10.simple hkind
        exact ⟨g.lost, g.numArrivals, g.arrivals⟩
      · rw [Function.update_of_ne hek]; exact ⟨rfl, rfl, rfl⟩
    cases h11 with
    | null m g1 => exact absurd g1 hkind.ne_null
    | queue g1 g2 =>
      obtain ⟨q, a1, a2, a3, a4, a5, a6, a7, a8, a9, a10, a11, a12, a13⟩ := g2.mid
      have hin : ∀ s : QS T, (if stopAt N n k' e s1.numTotal q then setInactive s else s).numSystem = s.numSystem ∧
          (if stopAt N n k' e s1.numTotal q then setInactive s else s).numServers = s.numServers ∧
          (if stopAt N n k' e s1.numTotal q then setInactive s else s).arrivals = s.arrivals ∧
          (if stopAt N n k' e s1.numTotal q then setInactive s else s).lost = s.lost ∧
          (if stopAt N n k' e s1.numTotal q then setInactive s else s).numArrivals = s.numArrivals := by
        intro s; split <;> exact ⟨rfl, rfl, rfl, rfl, rfl⟩
      have hqn : q.numArrivals = (Function.update n.qs k' s1 e).numArrivals := by
        unfold addArrivalAgent at a1
        rw [if_neg hkind.ne_null] at a1
        split at a1
        · simp at a1
        · simp only [Except.ok.injEq] at a1; rw [← a1]; unfold bumpTime; split <;> rfl
      have ht2 : aa.time = a'.time := by rw [h10.same]
      have hev : EvOut (N.qc e) (if stopAt N n k' e s1.numTotal q then setInactive q else q) s2 none := by
        cases a13.out with
        | simple _ ho => exact ho
        | resource g => exact absurd g hkind.ne_res
      have hpick : ∀ x : Agent T, x ∈ agents q.arrivals → x.time ≤ aa.time → x = aa := by
        intro x hx hle
        rcases List.mem_cons.mp (a8.mem_iff.mp hx) with rfl | hx
        · rfl
        · rw [hq.2.2] at hx
          have := (hi.good e h3).base.okA.le x hx
          exact absurd (hlater.trans_le this) (not_lt.mpr (ht2 ▸ hle))
      have hhead : headTime q.arrivals ≤ aa.time := by
        have hr2 : QBase (n.qs e) := (hi.good e h3).base
        -- the new state of the queue has its next event at the time of the agent
        cases hev with
        | idle e1 e2 e3 =>
          have := g2.cur
          exact (show headTime q.arrivals ≤ aa.time from by
            have hok : ∀ y ∈ agents q.arrivals, headTime q.arrivals ≤ y.time := by
              intro y hy
              unfold addArrivalAgent at a1
              rw [if_neg hkind.ne_null] at a1
              obtain ⟨arr, p1, p2, p3, p4⟩ := handover_spec (N.qc e) (Function.update n.qs k' s1 e) aa hkind.ne_null
                (by rw [hq.2.2]; exact hr2.okA) (by
                  by_cases hek : e = k'
                  · subst hek; rw [Function.update_self]; exact (h10.simple hkind).1.time
                  · rw [Function.update_of_ne hek]; exact hr2.time)
              rw [addArrivalAgent, if_neg hkind.ne_null] at p4
              rw [p4] at a1
              simp only [Except.ok.injEq] at a1
              subst a1
              exact p1.le y hy
            exact hok aa (a8.mem_iff.mpr (by simp)))
        | arr y rest e1 e2 e3 e4 e5 =>
          rw [← (hin q).2.2.1, ← e4.time_eq, ← e4.currentT, g2.cur]
        | block y rest e1 e2 e3 e4 e5 e6 =>
          rw [← (hin q).2.2.1, ← e5.time_eq, ← e5.currentT, g2.cur]
      cases hev with
      | idle e1 e2 e3 =>
        rw [(hin q).2.2.1] at e1
        rw [e1, top_le_iff] at hhead
        exact absurd (h10.time ▸ hlt) (by rw [hhead]; exact lt_irrefl _)
      | block y rest e1 e2 e3 e4 e5 e6 =>
        exfalso
        rw [(hin q).1, (hin q).2.1, a6, a7, room_after (fun h => hfit h e3) e3 h9 h10] at e4
        simp at e4
      | arr y rest e1 e2 e3 e4 e5 =>
        have hy : y = aa := by
          refine hpick y ?_ ?_
          · have := e4.perm.mem_iff.mpr (List.mem_cons_self (a := y))
            rwa [(hin q).2.2.1] at this
          · rw [e4.time_eq, (hin q).2.2.1]; exact hhead
        subst hy
        rw [he, show a'.id = y.id by rw [h10.same]]
        refine ⟨by rw [e4.lost, (hin q).2.2.2.1, a5, hq.1], by rw [e4.numArrivals, (hin q).2.2.2.2, hqn, hq.2.1], ?_⟩
        rcases e4.served with ⟨-, q1, -, q3, -, -⟩ | ⟨-, q1, -, q3, -, -⟩
        · exact List.mem_map.mpr ⟨_, List.mem_append.mpr (.inr (q3.mem_iff.mpr (List.mem_cons_self))), rfl⟩
        · refine List.mem_map.mpr ⟨y, List.mem_append.mpr (.inl (by rw [q1]; simp)), rfl⟩

/-- C49, second part that holds: an agent is lost only in an arrival event, and it was scheduled to arrive before;
so no agent is lost while it moves from one queue to another. -/
theorem C49_lost_on_arrival_partial {N : NetCfg T R} (hN : N.OkA) {b : Nat → Bool}
    {n n' : Net T R} (h : NetReach N b n) (hr : n.simulate N 1 = .ok n') {e : Nat} (hl : (N.qc e).kind ≠ .resource)
    (hfit : (N.qc e).kind = .loss → ((n.qs e).numServers.add (N.qc e).buffer).le (n.qs e).numSystem = true)
    (hlost : (n'.qs e).lost ≠ (n.qs e).lost) :
    ∃ y ∈ agents (n.qs e).arrivals, y.time = n'.t ∧
      (n'.qs e).lost = (n.qs e).lost ++ [{ y with blocked := y.blocked + 1 }] ∧
      (N.qc e).kind = .loss ∧ atCapacity (N.qc e) (n.qs e) = true ∧ ∀ j, j ≠ e → n'.qs j = n.qs j := by
  have hi := h.invA hN
  obtain ⟨-, hst⟩ := step_of_simulateA hN h hr
  cases hst with
  | empty h0 h1 => rw [h1] at hlost; exact absurd rfl hlost
  | idle k' x hp h1 h2 h3 h4 h5 h6 h7 => rw [h7] at hlost; exact absurd rfl hlost
  | arrive k s' h1 h2 h3 h4 h5 h6 h7 h8 h9 h10 =>
    by_cases hek : e = k
    · subst hek
      have hin : ∀ f : Bool, (if f then setInactive (n.qs e) else n.qs e).numSystem = (n.qs e).numSystem ∧
          (if f then setInactive (n.qs e) else n.qs e).numServers = (n.qs e).numServers := by
        intro f; cases f <;> exact ⟨rfl, rfl⟩
      obtain ⟨m1, m2, m3, m4, m5, m6⟩ := maybeInactive_same ((n.qs e).active && n.maxed N) (n.qs e)
      have hs' : n'.qs e = s' := by rw [h8, Function.update_self]
      rw [hs'] at hlost ⊢
      cases evSimple hl h7.out with
      | idle _ _ g => rw [g, m6] at hlost; exact absurd rfl hlost
      | arr y rest _ _ _ g _ => rw [g.lost, m6] at hlost; exact absurd rfl hlost
      | block y rest e1 e2 e3 e4 g e6 =>
        refine ⟨y, ?_, ?_, by rw [g.lost, m6], e3, ?_, fun j hj => by rw [h8, Function.update_of_ne hj]⟩
        · have := g.perm.mem_iff.mpr (List.mem_cons_self (a := y))
          rwa [m1] at this
        · rw [h10, ← g.currentT, h7.cur, m3]
        · rw [(hin _).1, (hin _).2] at e4
          unfold atCapacity
          rw [e3]
          simpa using e4
    · rw [h8, Function.update_of_ne hek] at hlost; exact absurd rfl hlost
  | block k e' a s1 d h1 h2 h3 h4 h5 h6 h7 h8 h9 h10 h11 h12 h13 h14 h15 =>
    exfalso
    by_cases hek : e = k
    · subst hek
      rw [h13, Function.update_self] at hlost
      exact hlost h12.same.2.2.2.2.2.2.1
    · rw [h13, Function.update_of_ne hek] at hlost
      by_cases hee : e = e'
      · subst hee; rw [Function.update_self] at hlost; exact hlost rfl
      · rw [Function.update_of_ne hee] at hlost; exact hlost rfl
  | move k e' a a2 s1 s2 d h1 h2 h3 h4 h5 h6 h7 h8 h9 h10 h11 h12 h13 h14 =>
    exfalso
    by_cases hee : e = e'
    · subst hee
      rw [h12, Function.update_self] at hlost
      have hq : (Function.update n.qs k s1 e).lost = (n.qs e).lost := by
        by_cases hek : e = k
        · subst hek; rw [Function.update_self]; exact h10.ids.2.2.2.1
        · rw [Function.update_of_ne hek]
      cases h11 with
      | null m g1 g2 g3 g4 g5 =>
        have : m.lost = (Function.update n.qs k s1 e).lost := by
          unfold addArrivalAgent at g2
          rw [if_pos g1] at g2
          simp only [Except.ok.injEq] at g2
          rw [← g2]; split <;> rfl
        rw [g5, (maybeInactive_same _ _).2.2.2.2.2, this, hq] at hlost
        exact hlost rfl
      | queue g1 g2 =>
        obtain ⟨q, a1, a2, a3, a4, a5, a6, a7, a8, a9, a10, a11, a12, a13⟩ := g2.mid
        have hin : (if stopAt N n k e s1.numTotal q then setInactive q else q).numSystem = q.numSystem ∧
            (if stopAt N n k e s1.numTotal q then setInactive q else q).numServers = q.numServers ∧
            (if stopAt N n k e s1.numTotal q then setInactive q else q).lost = q.lost := by
          split <;> exact ⟨rfl, rfl, rfl⟩
        cases evSimple hl a13.out with
        | idle _ _ g => rw [g, hin.2.2, a5, hq] at hlost; exact hlost rfl
        | arr y rest _ _ _ g _ => rw [g.lost, hin.2.2, a5, hq] at hlost; exact hlost rfl
        | block y rest e1 e2 e3 e4 e5 e6 =>
          rw [hin.1, hin.2.1, a6, a7, room_after (fun _ => hfit e3) e3 h9 h10] at e4
          simp at e4
    · by_cases hek : e = k
      · subst hek
        rw [h12, Function.update_of_ne hee, Function.update_self, h10.ids.2.2.2.1] at hlost
        exact hlost rfl
      · rw [h12, Function.update_of_ne hee, Function.update_of_ne hek] at hlost
        exact hlost rfl

/-- The condition `hfit` above holds in every history in which no number of servers is lowered. -/
theorem C49_fits {N : NetCfg T R} (hN : N.OkA) (hR : RoomOk N) {b : Nat → Bool} {n : Net T R}
    (h : NetHist N b (fun n op => ∀ k m, op = .setServers k (.int m) → 0 < m →
      (n.qs k).numServers.gt (.fin m) = false) n) {e : Nat} (he : e < N.nE)
    (hl : (N.qc e).kind = .loss) : ((n.qs e).numServers.add (N.qc e).buffer).le (n.qs e).numSystem = true := by
  have := NetHist.room (n := n) (b := b) hN ?_ he hl (hR e he hl)
  · exact this
  · induction h with
    | new bas probs hp => exact .new bas probs hp
    | step op _ ha ho hr ih =>
      refine ih.step op ha ?_ hr
      intro k m hm m' hm' hp
      cases hm'
      exact ho k m' hm hp

/-- Queue 0 leads to the LossQueue 1, which also has arrivals of its own. -/
def tieNet : NetCfg ℕ∞ Nat where
  nE := 3
  qc k := match k with
    | 0 => { demoQ .server 0 1 0 1 2 8 .inf with deactiveT := 3 }
    | 1 => { demoQ .loss 1 2 1 1 5 1 (.fin 0) with deactiveT := 11 }
    | _ => demoQ .null 2 2 k 0 1 1 .inf
  outEdges v := match v with
    | 0 => [0]
    | 1 => [1]
    | _ => [2]
  maxAgents := .inf
  unif _ := 0
  jit _ t := t
  garbage _ _ := (0, 0)

theorem tieNet_ok : tieNet.Ok := by
  have hk : ∀ k, k < 3 → k = 0 ∨ k = 1 ∨ k = 2 := by omega
  refine ⟨by decide, by unfold Simple; decide, fun k h => ?_, by unfold Simple; decide,
    by unfold Simple; decide, fun _ _ => le_rfl⟩
  rcases hk k h with rfl | rfl | rfl <;> exact ⟨fun n t => le_self_add, fun n t => le_self_add⟩

/-- State of `tieNet` after `m` events. -/
def tieAt (m : Nat) : Net ℕ∞ Nat :=
  resNet tieNet (fun _ => true) true (fun v => List.replicate (tieNet.outEdges v).length 1)
    (.initialise (fun l _ => l) (.queues [0, 1]) :: List.replicate m .step)

/-- C49 as stated is false (F5): agent (0, 0), created at queue 0, leaves it at time 10 for queue 1, which is
not at capacity. An outside arrival at queue 1 at the same time is let in first, and the agent is lost. -/
theorem C49_lost_in_tie : tieNet.Ok ∧ RoomOk tieNet ∧ NetReach tieNet (fun _ => true) (tieAt 3) ∧
    (tieAt 3).t = 6 ∧ (agents ((tieAt 3).qs 0).departures).map (fun a => (a.id, a.time)) = [((0, 0), 10)] ∧
    atCapacity (tieNet.qc 1) ((tieAt 3).qs 1) = false ∧
    ((tieAt 4).qs 0).numTotal = 0 ∧ ((tieAt 5).qs 1).lost.map (·.id) = [(0, 0)] :=
  ⟨tieNet_ok, by unfold RoomOk; decide, reachNet _ _ _ _ _ (fun _ => List.length_replicate), by decide +kernel,
    by decide +kernel, by decide +kernel, by decide +kernel, by decide +kernel⟩

/-! ## C50: initialize -/

/-- The queues that should be activated when `l` is given: those not of edge type 0, at most
`max_agents`. -/
def chosen (N : NetCfg T R) (l : List Nat) : List Nat :=
  match N.maxAgents with
  | .inf => l.filter fun e => decide ((N.qc e).edge.etype ≠ 0)
  | .fin m => (l.filter fun e => decide ((N.qc e).edge.etype ≠ 0)).take m.toNat

theorem truncate_chosen {N : NetCfg T R} (hm : ∀ m, N.maxAgents = .fin m → 0 ≤ m) (l : List Nat) :
    Net.truncate N (l.filter fun e => decide ((N.qc e).edge.etype ≠ 0)) = chosen N l := by
  unfold Net.truncate chosen Net.pySlice
  cases h : N.maxAgents with
  | inf => rfl
  | fin m =>
    have := hm m h
    simp only
    split
    · rfl
    · rw [List.take_of_length_le (by omega)]

/-- What is in the schedule. -/
def Scheduled (N : NetCfg T R) (n : Net T R) : Prop :=
  n.heap.stored.Perm (((List.range N.nE).filter fun k => decide ((n.qs k).time < ⊤)).map
    fun k => ((n.qs k).time, k))

theorem keys_eq {N : NetCfg T R} (hN : N.OkA) (n : Net T R) :
    n.keys N = ((List.range N.nE).filter fun k => decide ((n.qs k).time < ⊤)).map
      fun k => ((n.qs k).time, k) := by
  unfold Net.keys
  refine List.map_congr_left fun k hk => ?_
  rw [hN.idx k (List.mem_range.mp (List.mem_of_mem_filter hk))]

/-- C50: `initialize(queues=l)`, for different existing queues `l` not all of edge type 0, performs
`set_active` on exactly the queues that should be activated and leaves the others alone. Then the network is
initialised, and the schedule has exactly one entry for every queue with an event ahead, at the time
of this event. The network is new or cleared, or it is a running one and `set_active` schedules no event
before its clock. -/
theorem C50_initialize {N : NetCfg T R} (hN : N.OkA) (hm : ∀ m, N.maxAgents = .fin m → 0 ≤ m)
    {b : Nat → Bool} {n : Net T R} (h : NetReach N b n)
    (pick : List Nat → Nat → List Nat) {l : List Nat} (hnd : l.Nodup) (hl : ∀ e ∈ l, e < N.nE)
    (hi : n.initialized = false ∨ ∀ k ∈ l, ∀ s', setActive (N.qc k) (n.qs k) = .ok s' → n.t ≤ s'.time)
    (hne : ∃ e ∈ l, (N.qc e).edge.etype ≠ 0) :
    ∃ n', n.initialise N pick (.queues l) = .ok n' ∧ n'.initialized = true ∧ n'.t = n.t ∧
      (n.initialized = false → n'.t = 0) ∧ Scheduled N n' ∧
      (∀ k ∈ chosen N l, setActive (N.qc k) (n.qs k) = .ok (n'.qs k) ∧ n'.numAgents k = (n'.qs k).numTotal) ∧
      (∀ k, k ∉ chosen N l → n'.qs k = n.qs k ∧ n'.numAgents k = n.numAgents k) := by
  have hI := h.invA hN
  have hsub : (chosen N l).Sublist l := by
    rw [← truncate_chosen hm]
    exact (truncate_sub N _).trans List.filter_sublist
  have hlt : ∀ e ∈ chosen N l, e < N.nE := fun e he => hl e (hsub.subset he)
  obtain ⟨n1, q1, q2, q3, q5, q6, q7⟩ := activate_coreA hN (chosen N l) n hI.core hlt (by
    intro n1 ha
    rcases hi with hi | hi
    · exact hI.fresh_tau hN hi hlt ha
    · obtain ⟨n2, b1, -, -, b4, b5⟩ := activate_leA hN (chosen N l) n hI.good hlt
      obtain rfl : n2 = n1 := Except.ok.inj (b1.symm.trans ha)
      intro k hk
      by_cases hc : k ∈ chosen N l
      · exact hi k (hsub.subset hc) _ (b5 k hc (hsub.nodup hnd))
      · rw [b4 k hc]; exact hI.tau k hk)
  obtain ⟨h', g1, g2, g3, g4, -⟩ := q2.rebuild hN
  refine ⟨{ n1 with heap := h', initialized := true }, ?_, rfl, q3,
    fun hf => q3.trans (hI.fresh hf).2.1, ?_, ?_, ?_⟩
  · unfold Net.initialise
    simp only [Net.selection, sift_spec l hl]
    rw [if_neg, truncate_chosen hm, q1]
    · simp only [g1]
    · obtain ⟨e, he, ht⟩ := hne
      have : e ∈ l.filter fun e => decide ((N.qc e).edge.etype ≠ 0) := by simp [he, ht]
      have := List.length_pos_of_mem this
      omega
  · unfold Scheduled
    rw [← keys_eq hN]
    exact g4
  · intro k hk
    exact ⟨q6 k hk (hsub.nodup hnd), g2.num k (hl k (hsub.subset hk))⟩
  · intro k hk; exact q5 k hk

/-- C50: `initialize(nActive=m)` does the same for the queues drawn by `numpy.random.choice`, which are
`min(m, number of candidates)` different ones among the queues not of edge type 0. -/
theorem C50_initialize_nActive {N : NetCfg T R} (hN : N.OkA) (n : Net T R)
    (pick : List Nat → Nat → List Nat) {m : Int} (h1 : 1 ≤ m)
    (hpick : ∀ l i, l.Nodup → i ≤ l.length → (pick l i).Nodup ∧ (∀ e ∈ pick l i, e ∈ l) ∧ (pick l i).length = i) :
    let cands := (List.range N.nE).filter fun e => decide ((N.qc e).edge.etype ≠ 0)
    let l := pick cands (min m.toNat cands.length)
    n.initialise N pick (.nActive (.int m)) = n.initialise N pick (.queues l) ∧ l.Nodup ∧
      (∀ e ∈ l, e < N.nE ∧ (N.qc e).edge.etype ≠ 0) ∧ (l.length : Int) = min m cands.length := by
  intro cands l
  have hc : Net.candidates N = cands := by
    unfold Net.candidates
    rw [show cands = cands.map id by simp]
    refine List.map_congr_left fun k hk => ?_
    rw [hN.idx k (List.mem_range.mp (List.mem_of_mem_filter hk))]; rfl
  have hnd : cands.Nodup := List.nodup_range.filter _
  obtain ⟨p1, p2, p3⟩ := hpick cands (min m.toNat cands.length) hnd (Nat.min_le_right _ _)
  refine ⟨?_, p1, ?_, ?_⟩
  · unfold Net.initialise Net.selection
    simp only [if_pos h1, hc]
    rfl
  · intro e he
    have := p2 e he
    simp only [cands, List.mem_filter, List.mem_range, decide_eq_true_eq] at this
    exact this
  · show ((pick cands (min m.toNat cands.length)).length : Int) = _
    rw [p3]
    omega

/-- C50: the documented exceptions. -/
theorem C50_initialize_errors (N : NetCfg T R) (n : Net T R) (pick : List Nat → Nat → List Nat) :
    (∀ m : Int, m < 1 → n.initialise N pick (.nActive (.int m)) = .error (.py .valueError)) ∧
    (∀ x : PyNum, (∀ m, x ≠ .int m) → n.initialise N pick (.nActive x) = .error (.py .typeError)) ∧
    (∀ l, (∀ e ∈ l, e < N.nE ∧ (N.qc e).edge.etype = 0) →
      n.initialise N pick (.queues l) = .error (.py .queueingToolError)) ∧
    (∀ l, (∃ e ∈ l, N.nE ≤ e) → n.initialise N pick (.queues l) = .error (.py .indexError)) := by
  refine ⟨fun m hm => ?_, fun x hx => ?_, fun l hl => ?_, fun l hl => ?_⟩
  · simp [Net.initialise, Net.selection, not_le.mpr hm]
  · unfold Net.initialise Net.selection
    cases x with
    | int m => exact absurd rfl (hx m)
    | _ => rfl
  · unfold Net.initialise
    simp only [Net.selection]
    rw [sift_spec l (fun e he => (hl e he).1)]
    simp only
    rw [if_pos]
    rw [List.length_eq_zero_iff, List.filter_eq_nil_iff]
    intro e he
    simp [(hl e he).2]
  · have : Net.sift N l = .error (.py .indexError) := by
      induction l with
      | nil => simp at hl
      | cons e es ih =>
        simp only [Net.sift]
        split
        · rfl
        · rename_i he
          rw [ih]
          obtain ⟨x, hx, hx'⟩ := hl
          rcases List.mem_cons.mp hx with rfl | hx
          · exact absurd hx' he
          · exact ⟨x, hx, hx'⟩
    unfold Net.initialise
    simp only [Net.selection, this]

example : NetReach demoNet (fun _ => true) (Net.init demoNet (fun _ => true) true demoProbs) ∧
    chosen demoNet [2, 3, 0] = [2, 0] := ⟨.new _ _ demoProbs_ok, by decide +kernel⟩

/-! ## C51, C52 -/

/-- C51: on a new or cleared network `simulate` raises QueueingToolError, whatever is asked for. -/
theorem C51_simulate_requires_initialize [Add T] {N : NetCfg T R} {b : Nat → Bool} {n : Net T R}
    (h : NetReach N b n) :
    (∀ bas probs m, (Net.init N b bas probs).simulate N m = .error (.py .queueingToolError)) ∧
    (∀ m, (n.clear N).simulate N m = .error (.py .queueingToolError)) ∧
    (∀ d fuel, (n.clear N).simulateT N d fuel = some (.error (.py .queueingToolError))) := by
  exact ⟨fun _ _ _ => rfl, fun _ => rfl, fun _ _ => rfl⟩

/-- C51: an initialised network in a history never raises QueueingToolError. -/
theorem C51_only_before_initialize {N : NetCfg T R} (hN : N.OkA) {b : Nat → Bool} (m : Nat) : ∀ {n : Net T R},
    NetReach N b n → (n.simulate N m = .error (.py .queueingToolError) ↔ n.initialized = false) := by
  induction m with
  | zero =>
    intro n h
    unfold Net.simulate Net.steps
    by_cases hi : n.initialized = true
    · simp [hi]
    · simp [hi]
  | succ m ih =>
    intro n h
    by_cases hi : n.initialized = true
    · simp only [hi]
      unfold Net.simulate Net.steps
      rw [if_pos hi]
      rcases step_specA hN (h.invA hN) hi with ⟨n1, g1, g2, g3⟩ | ⟨g1, -⟩
      · rw [g1]
        have hs1 : n.simulate N 1 = .ok n1 := by rw [simulate_one, if_pos hi, g1]
        have hreach := h.step .step trivial hs1
        have hi1 : n1.initialized = true := by
          cases g2 with
          | empty _ h1 => rw [h1]; exact hi
          | idle k x hp h1 h2 h3 h4 h5 _ h6 => rw [h6]; exact hi
          | arrive k s' h1 h2 h3 h4 h5 h6 h7 h8 h9 h10 h11 h12 h13 => rw [h13.init]; exact hi
          | block k e a s1 d h1 h2 h3 h4 h5 h6 h7 h8 h9 h10 h11 h12 h13 h14 h15 h16 h17 h18 =>
            rw [h18.init]; exact hi
          | move k e a a' s1 s2 d h1 h2 h3 h4 h5 h6 h7 h8 h9 h10 h11 h12 h13 h14 h15 h16 h17 =>
            rw [h17.init]; exact hi
        have := ih hreach
        rw [Net.simulate, if_pos hi1] at this
        simp only [this, hi1]
      · rw [g1]; simp
    · simp [Net.simulate, hi]

/-- C52: after `clear()` the clock, the event count and `num_agents` are zero, nothing is scheduled, nobody is in
the network, the network has to be initialised again, and every queue is as after its own `clear()`
(C21). Blocking mode and transition probabilities are kept. -/
theorem C52_clear {N : NetCfg T R} (hN : N.OkA) {b : Nat → Bool} {n : Net T R} (h : NetReach N b n) :
    let n' := n.clear N
    NetReach N b n' ∧ n'.t = 0 ∧ n'.numEvents = 0 ∧ (∀ k, n'.numAgents k = 0) ∧ n'.heap.stored = [] ∧
    n'.initialized = false ∧ everyone N n'.qs = [] ∧
    (∀ k < N.nE, n'.qs k = Verif.clear (N.qc k) (n.qs k) ∧ (n'.qs k).time = ⊤) ∧
    n'.bas = n.bas ∧ n'.probs = n.probs := by
  intro n'
  have hr : NetReach N b n' := h.step .clear trivial rfl
  have hi := hr.invA hN
  refine ⟨hr, rfl, rfl, fun _ => rfl, rfl, rfl, ?_, fun k hk => ⟨rfl, ((h.invA hN).good k hk).clear.2.2.1⟩, rfl, rfl⟩
  rw [List.eq_nil_iff_forall_not_mem]
  intro x hx
  obtain ⟨k, hk, hx⟩ := mem_everyone.mp hx
  have h1 := C99_num_agents hN hr hk
  have h2 : n'.numAgents k = 0 := rfl
  rw [h2] at h1
  have : (presentIds (n'.qs k)).length = 0 := by
    simp only [presentIds, List.length_append, List.length_map]
    have h1 := h1.symm
    norm_cast at h1
    omega
  rw [List.length_eq_zero_iff.mp this] at hx
  simp at hx

example : (everyone demoNet (demoAt 10).qs).length = 6 ∧ (demoAt 10).numEvents = 10 := by decide +kernel

/-- C50, C52: with a ResourceQueue. -/
example : NetReach stockNet (fun _ => true) (Net.init stockNet (fun _ => true) true demoProbs) ∧
    chosen stockNet [1, 3, 0] = [1, 0] ∧ (everyone stockNet (stockAt 10).qs).length = 6 :=
  ⟨.new _ _ demoProbs_ok, by decide +kernel⟩

end Verif.NetSpec
