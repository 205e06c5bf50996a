import Verif.QueueInv3
import Verif.Props.Queue2

/-! # Bounds in terms of the calls made (C130, C131)

The claims C08, C14 and C22 fail when the number of servers is lowered or the queue is activated again. Here it is proved
by how much: the bounds depend on nothing but the list of calls. -/

set_option linter.unusedSectionVars false
set_option linter.unusedSimpArgs false
set_option linter.unusedVariables false

namespace Verif.QueueSpec

variable {T : Type*} [LinearOrder T] [OrderTop T] [Zero T]

/-- By how much a list of calls lowers the number of servers in total, starting with `m` servers: the sum of
`old - new` over the calls `set_num_servers(new)` with `0 < new < old`. -/
def lowered : Int → List (QOp T) → Int
  | _, [] => 0
  | m, .setServers (.int k) :: ops => if 0 < k then max 0 (m - k) + lowered k ops else lowered m ops
  | m, _ :: ops => lowered m ops

/-- The number of servers after a list of calls: that of the last valid `set_num_servers`. -/
def serversAfter : Int → List (QOp T) → Int
  | m, [] => m
  | m, .setServers (.int k) :: ops => if 0 < k then serversAfter k ops else serversAfter m ops
  | m, _ :: ops => serversAfter m ops

/-- Number of calls of `set_active`. -/
def activations : List (QOp T) → Nat
  | [] => 0
  | .setActive :: ops => activations ops + 1
  | _ :: ops => activations ops

/-- `set_num_servers(numpy.infty)` is not called. -/
def FiniteCalls (ops : List (QOp T)) : Prop := .setServers .infty ∉ ops

/-- The number of servers and the amount by which it was lowered so far, after one more call. -/
theorem lowered_step {c : QCfg T} {s s' : QS T} {op : QOp T} (hk : Simple c) (hq : QInv s) (ho : OpOut c s op s')
    (hop : op ≠ .setServers .infty) {m : Int} (hm : s.numServers = .fin m) (h0 : 0 ≤ m) (e : Int) (he : 0 ≤ e)
    (hs : (inService s).length ≤ m + e) :
    ∃ m' e', s'.numServers = .fin m' ∧ 0 ≤ m' ∧ 0 ≤ e' ∧ (inService s').length ≤ m' + e' ∧
      (∀ ops, e' + lowered m' ops = e + lowered m (op :: ops)) ∧
      (∀ ops, serversAfter m' ops = serversAfter m (op :: ops)) ∧
      (∀ buf, c.kind = .loss → c.buffer = .fin buf → 0 ≤ buf →
        s.numSystem ≤ m + buf + e → s'.numSystem ≤ m' + buf + e') := by
  have same : ∀ {s' : QS T}, s'.numServers = s.numServers → (inService s').length ≤ (inService s).length →
      (c.kind = .loss → s'.numSystem ≤ s.numSystem ∨ s'.numSystem = 0) →
      (∀ ops, lowered m (op :: ops) = lowered m ops ∧ serversAfter m (op :: ops) = serversAfter m ops) →
      ∃ m' e', s'.numServers = .fin m' ∧ 0 ≤ m' ∧ 0 ≤ e' ∧ (inService s').length ≤ m' + e' ∧
      (∀ ops, e' + lowered m' ops = e + lowered m (op :: ops)) ∧
      (∀ ops, serversAfter m' ops = serversAfter m (op :: ops)) ∧
      (∀ buf, c.kind = .loss → c.buffer = .fin buf → 0 ≤ buf →
        s.numSystem ≤ m + buf + e → s'.numSystem ≤ m' + buf + e') := by
    intro s' h1 h2 h3 h4
    refine ⟨m, e, by rw [h1, hm], h0, he, by omega, fun ops => by rw [(h4 ops).1], fun ops => (h4 ops).2.symm, ?_⟩
    intro buf hl hb g1 g2
    rcases h3 hl with h3 | h3 <;> omega
  cases ho with
  | ev s' r _ h1 =>
    have hns : s'.numServers = s.numServers := by
      cases h1 with
      | idle _ _ h2 => rw [h2]
      | dep a hlt h2 _ => exact h2.numServers
      | arr a rest hle _ _ h2 _ => exact h2.numServers
      | block a rest hle _ _ _ h2 _ => exact h2.numServers
    refine ⟨m, e, by rw [hns, hm], h0, he, ?_, fun ops => rfl, fun ops => rfl, ?_⟩
    · rcases h1.servers hq with h2 | h2
      · have : (inService s').length ≤ (inService s).length := h2
        omega
      · rw [hns, hm] at h2
        simp only [Cap.le, decide_eq_true_eq] at h2
        have : ((inService s').length : Int) ≤ m := h2
        omega
    · intro buf hl hb g1 g2
      cases h1 with
      | idle _ _ h2 => rw [h2]; omega
      | dep a hlt h2 _ => rw [h2.numSystem]; omega
      | arr a rest hle _ hc h2 _ =>
        have := hc hl
        rw [hm, hb] at this
        simp only [Cap.add, Cap.lt, decide_eq_true_eq] at this
        rw [h2.numSystem]; omega
      | block a rest hle _ _ _ h2 _ => rw [h2.numSystem]; omega
  | already => exact same rfl le_rfl (fun _ => .inl le_rfl) (fun _ => ⟨rfl, rfl⟩)
  | act => exact same rfl le_rfl (fun _ => .inl le_rfl) (fun _ => ⟨rfl, rfl⟩)
  | inact => exact same rfl le_rfl (fun _ => .inl le_rfl) (fun _ => ⟨rfl, rfl⟩)
  | srv n s' r h1 =>
    cases h1 with
    | typ hn =>
      refine same rfl le_rfl (fun _ => .inl le_rfl) (fun ops => ?_)
      rcases hn with rfl | ⟨rfl, _⟩
      · exact ⟨rfl, rfl⟩
      · exact absurd rfl hop
    | val k hn hk0 =>
      refine same rfl le_rfl (fun _ => .inl le_rfl) (fun ops => ?_)
      subst hn
      simp only [lowered, serversAfter]
      rw [if_neg (by omega), if_neg (by omega)]
      exact ⟨rfl, rfl⟩
    | ok new k deps hnew hag hkl h2 h3 =>
      have hl := h3.length_eq
      simp only [List.length_append, startServ_length, List.length_take, Nat.min_eq_left hkl] at hl
      rcases hnew with ⟨m', rfl, hm', rfl⟩ | ⟨hh, rfl⟩
      · rw [hm] at hag
        simp only [agentsToQueue, Option.some.injEq] at hag
        refine ⟨m', e + max 0 (m - m'), rfl, hm'.le, by omega, ?_, fun ops => ?_, fun ops => ?_, ?_⟩
        · simp only [inService] at hs ⊢
          rw [hl]
          push_cast
          omega
        · simp only [lowered]; rw [if_pos hm']; omega
        · simp only [serversAfter]; rw [if_pos hm']
        · intro buf _ _ g1 g2
          show s.numSystem ≤ _
          omega
      · exact absurd (by rw [hh]) hop
  | delay t kb s' h1 =>
    cases h1 with
    | none => exact same rfl le_rfl (fun _ => .inl le_rfl) (fun _ => ⟨rfl, rfl⟩)
    | some a rest deps _ _ _ h4 h2 h3 =>
      refine same rfl ?_ (fun _ => .inl le_rfl) (fun _ => ⟨rfl, rfl⟩)
      have hl := h3.length_eq
      have hl' := h4.length_eq
      simp only [List.length_cons] at hl hl'
      simp only [inService]
      omega
  | collect => exact same rfl le_rfl (fun _ => .inl le_rfl) (fun _ => ⟨rfl, rfl⟩)
  | noteFull => exact same rfl le_rfl (fun _ => .inl le_rfl) (fun _ => ⟨rfl, rfl⟩)
  | noteOpen => exact same rfl le_rfl (fun _ => .inl le_rfl) (fun _ => ⟨rfl, rfl⟩)
  | clearData => exact same rfl le_rfl (fun _ => .inl le_rfl) (fun _ => ⟨rfl, rfl⟩)
  | clear =>
    rw [clear_simple c s hk]
    exact same rfl (by simp [inService, agents]) (fun _ => .inr rfl) (fun _ => ⟨rfl, rfl⟩)
  | handover a arr h1 h2 h3 => exact same rfl le_rfl (fun _ => .inl le_rfl) (fun _ => ⟨rfl, rfl⟩)


theorem okOps_any {c : QCfg T} (s : QS T) (ops : List (QOp T)) : okOps c anyOp s ops := by
  induction ops generalizing s with
  | nil => trivial
  | cons op ops ih => exact ⟨trivial, fun s' _ => ih s'⟩

theorem lowered_run {c : QCfg T} (hk : Simple c) {ops : List (QOp T)} {s s' : QS T} (hb : QBase s) (hq : QInv s)
    (hops : FiniteCalls ops) (hr : runOps c s ops = .ok s') {m e : Int} (hm : s.numServers = .fin m) (h0 : 0 ≤ m)
    (he : 0 ≤ e) (hs : (inService s).length ≤ m + e) :
    s'.numServers = .fin (serversAfter m ops) ∧
    (inService s').length ≤ serversAfter m ops + (e + lowered m ops) ∧
    ∀ buf, c.kind = .loss → c.buffer = .fin buf → 0 ≤ buf → s.numSystem ≤ m + buf + e →
      s'.numSystem ≤ serversAfter m ops + buf + (e + lowered m ops) := by
  induction ops generalizing s m e with
  | nil =>
    simp only [runOps, Except.ok.injEq] at hr
    subst hr
    simp only [serversAfter, lowered]
    exact ⟨hm, by omega, fun buf _ _ _ h => by omega⟩
  | cons op ops ih =>
    simp only [runOps] at hr
    split at hr
    · simp at hr
    · rename_i s1 h1
      have ho := opOut c s s1 op hk hb h1
      simp only [FiniteCalls, List.mem_cons, not_or] at hops
      obtain ⟨m', e', g1, g2, g3, g4, g5, g6, g7⟩ := lowered_step hk hq ho (fun h => hops.1 h.symm) hm h0 e he hs
      obtain ⟨k1, k2, k3⟩ := ih (hb.step hk ho) (hq.step hk hb ho) hops.2 hr g1 g2 g3 g4
      rw [g6] at k1
      refine ⟨k1, ?_, fun buf h1 h2 h3 h4 => ?_⟩
      · rw [g6, g5] at k2
        exact k2
      · have := k3 buf h1 h2 h3 (g7 buf h1 h2 h3 h4)
        rw [g6, g5] at this
        exact this

/-- C130, C08 for every list of calls: the number of servers is the one last set, and there are at most that many agents in
service, plus the total by which `set_num_servers` lowered the number. Without a lowering call this is C08 as claimed. -/
theorem C130_servers {c : QCfg T} (hk : Simple c) {b : Bool} {s : QS T} {m0 : Int} {ops : List (QOp T)}
    (hm : c.servers = .fin m0) (h0 : 0 ≤ m0) (hops : FiniteCalls ops) (hr : runOps c (QS.init c b) ops = .ok s) :
    s.numServers = .fin (serversAfter m0 ops) ∧
    (inService s).length ≤ serversAfter m0 ops + lowered m0 ops := by
  obtain ⟨h1, h2, _⟩ := lowered_run hk (QBase.init c b) (QInv.init c b) hops hr (m := m0) (e := 0) hm h0 le_rfl
    (by simp [inService, QS.init, agents]; exact h0)
  exact ⟨h1, by omega⟩

/-- The bound is attained: four agents are in service at two servers after the number went from three to one to two. -/
example :
    let c : QCfg ℕ∞ := { demo with servers := .fin 3, serviceF := fun _ t => t + 100 }
    let ops : List (QOp ℕ∞) :=
      [.setActive, .next, .next, .next, .next, .next, .setServers (.int 1), .setServers (.int 2)]
    FiniteCalls ops ∧ goodOps c true ops = true ∧ serversAfter 3 ops = 2 ∧ lowered 3 ops = 2 ∧
      (inService (resOps c true ops)).length = 4 := by
  refine ⟨by simp [FiniteCalls], by decide +kernel, by decide +kernel, by decide +kernel, by decide +kernel⟩

/-- C130, C22 for every list of calls: a LossQueue holds at most its servers and its buffer, plus the total by which
`set_num_servers` lowered the number of servers. -/
theorem C130_loss_room {c : QCfg T} (hk : c.kind = .loss) {b : Bool} {s : QS T} {m0 buf : Int}
    {ops : List (QOp T)} (hm : c.servers = .fin m0) (h0 : 0 ≤ m0) (hbuf : c.buffer = .fin buf) (h1 : 0 ≤ buf)
    (hops : FiniteCalls ops) (hr : runOps c (QS.init c b) ops = .ok s) :
    s.numSystem = s.queue.length + (inService s).length ∧
    s.numSystem ≤ serversAfter m0 ops + buf + lowered m0 ops := by
  have hq := ((Reach.init (c := c) (b := b) (ok := anyOp)).ofOps ops (okOps_any _ _) hr).inv (.inr hk)
  obtain ⟨_, _, h3⟩ := lowered_run (.inr hk) (QBase.init c b) (QInv.init c b) hops hr (m := m0) (e := 0) hm h0 le_rfl
    (by simp [inService, QS.init, agents]; exact h0)
  have := h3 buf hk hbuf h1 (by simp [QS.init]; omega)
  exact ⟨hq.numSystem, by omega⟩

/-- Attained: three agents at a LossQueue with one server and no buffer, after the number went from three to one. -/
example :
    let c : QCfg ℕ∞ := { demo with kind := .loss, buffer := .fin 0, servers := .fin 3, serviceF := fun _ t => t + 100 }
    let ops : List (QOp ℕ∞) := [.setActive, .next, .next, .next, .next, .next, .setServers (.int 1)]
    FiniteCalls ops ∧ goodOps c true ops = true ∧ serversAfter 3 ops = 1 ∧ lowered 3 ops = 2 ∧
      (resOps c true ops).numSystem = 3 := by
  refine ⟨by simp [FiniteCalls], by decide +kernel, by decide +kernel, by decide +kernel, by decide +kernel⟩

/-! ## C14 -/

/-- Created so far, counting the one an active stream may still create. -/
structure ActInv (cap : Int) (n : Nat) (s : QS T) : Prop where
  le : s.oArrivals + (if s.active then 1 else 0 : Int) ≤ max (cap - 1) 0 + n
  pos : s.active = true → 1 ≤ n

theorem ActInv.ext {c : QCfg T} {s s' : QS T} {t : T} {ext : List (Agent T)} {k n : Nat} {cap : Int}
    (hc : c.activeCap = .fin cap) (h : ActInv cap n s) (hx : ExtOut c s t ext s'.nextCt s'.active k)
    (ho : s'.oArrivals = s.oArrivals + ext.length) : ActInv cap n s' := by
  obtain ⟨h1, h2⟩ := h
  generalize hact : s'.active = act at hx
  generalize s'.nextCt = ν at hx
  cases hx with
  | inactive ha => exact ⟨by rw [ho, hact]; simp [ha] at h1 ⊢; omega, by simp [hact]⟩
  | early ha _ => exact ⟨by rw [ho, hact]; simp [ha] at h1 ⊢; omega, fun _ => h2 ha⟩
  | off ha _ _ => exact ⟨by rw [ho, hact]; simp [ha] at h1 ⊢; omega, by simp [hact]⟩
  | new ha _ _ =>
    have := h2 ha
    refine ⟨?_, fun _ => this⟩
    rw [ho, hact, hc]
    simp only [ha, if_true, Cap.lt, decide_eq_true_eq, List.length_singleton] at h1 ⊢
    push_cast
    split <;> omega

theorem ActInv.step {c : QCfg T} {s s' : QS T} {op : QOp T} {cap : Int} {n : Nat} (hk : Simple c)
    (hc : c.activeCap = .fin cap) (h : ActInv cap n s) (ho : OpOut c s op s') :
    ActInv cap (n + activations [op]) s' := by
  cases ho with
  | ev s' r _ h1 =>
    cases h1 with
    | idle _ _ h2 => rw [h2]; exact h
    | dep a _ h2 _ => exact ⟨by rw [h2.oArrivals, h2.active]; exact h.le, by rw [h2.active]; exact h.pos⟩
    | arr a rest _ _ _ h2 _ =>
      obtain ⟨ext, e1, -, e3, e4⟩ := h2.ext
      exact h.ext hc e1 e3
    | block a rest _ _ _ _ h2 _ =>
      obtain ⟨ext, e1, -, e3, e4⟩ := h2.ext
      exact h.ext hc e1 e3
  | already => exact ⟨by have := h.le; simp only [activations]; push_cast; omega, fun _ => by simp [activations]⟩
  | act arr ext ν act calls ha h1 h2 h3 =>
    have hle := h.le
    refine ⟨?_, fun _ => by simp [activations]⟩
    simp only [ha, activations] at hle ⊢
    cases h1 with
    | early => simp at hle ⊢; omega
    | off => simp at hle ⊢; omega
    | new =>
      simp only [hc, Cap.lt, Bool.true_and, decide_eq_true_eq, List.length_singleton]
      push_cast
      simp at hle
      split <;> omega
  | inact =>
    have := h.le
    refine ⟨?_, by simp⟩
    simp only [activations]
    split at this <;> simp <;> omega
  | srv n s' r h1 =>
    cases h1 with
    | typ => exact h
    | val => exact h
    | ok new k deps hnew hag hkl h2 h3 => exact ⟨h.le, h.pos⟩
  | delay t kb s' h1 =>
    cases h1 with
    | none => exact h
    | some a rest deps _ _ _ h4 h2 h3 => exact ⟨h.le, h.pos⟩
  | collect => exact ⟨h.le, h.pos⟩
  | noteFull => exact ⟨h.le, h.pos⟩
  | noteOpen => exact h
  | clearData => exact ⟨h.le, h.pos⟩
  | clear =>
    rw [clear_simple c s hk]
    exact ⟨by simp; omega, by simp⟩
  | handover a arr h1 h2 h3 => exact ⟨h.le, h.pos⟩

theorem activations_cons (op : QOp T) (ops : List (QOp T)) :
    activations (op :: ops) = activations [op] + activations ops := by
  cases op <;> simp [activations]; omega

theorem ActInv.run {c : QCfg T} (hk : Simple c) {cap : Int} (hc : c.activeCap = .fin cap) {ops : List (QOp T)}
    {s s' : QS T} {n : Nat} (hb : QBase s) (h : ActInv cap n s) (hr : runOps c s ops = .ok s') :
    ActInv cap (n + activations ops) s' := by
  induction ops generalizing s n with
  | nil =>
    simp only [runOps, Except.ok.injEq] at hr
    exact hr ▸ h
  | cons op ops ih =>
    simp only [runOps] at hr
    split at hr
    · simp at hr
    · rename_i s1 h1
      have ho := opOut c s s1 op hk hb h1
      have := ih (hb.step hk ho) (h.step hk hc ho) hr
      rwa [Nat.add_assoc, ← activations_cons] at this

/-- C131, C14 for every list of calls and every cap: at most `active_cap - 1` agents (none for a cap below one) and one more
for each call of `set_active`. With one activation and a cap of at least one this is C14 as claimed. -/
theorem C131_activations {c : QCfg T} (hk : Simple c) {b : Bool} {s : QS T} {cap : Int} {ops : List (QOp T)}
    (hc : c.activeCap = .fin cap) (hr : runOps c (QS.init c b) ops = .ok s) :
    s.created.length = s.oArrivals ∧ (s.oArrivals : Int) ≤ max (cap - 1) 0 + activations ops := by
  have hi := ((Reach.init (c := c) (b := b) (ok := anyOp)).ofOps ops (okOps_any _ _) hr).cinv hk
  refine ⟨by simpa using congrArg List.length hi.ids, ?_⟩
  have h : ActInv cap 0 (QS.init c b) := ⟨by simp [QS.init], by simp [QS.init]⟩
  have := (h.run hk hc (QBase.init c b) hr).le
  simp only [Nat.zero_add] at this
  split at this <;> omega

/-- The bound is attained: a cap of zero and one activation give one agent; a cap of two and three activations give
four. -/
example :
    let c : QCfg ℕ∞ := { demo with activeCap := .fin 0 }
    let c' : QCfg ℕ∞ := { demo with activeCap := .fin 2 }
    let ops : List (QOp ℕ∞) := [.setActive, .next, .next, .setActive, .next, .next, .setActive, .next, .next]
    goodOps c true [.setActive, .next] = true ∧ (resOps c true [.setActive, .next]).oArrivals = 1 ∧
      goodOps c' true ops = true ∧ activations ops = 3 ∧ (resOps c' true ops).oArrivals = 4 := by
  refine ⟨by decide +kernel, by decide +kernel, by decide +kernel, by decide +kernel, by decide +kernel⟩

end Verif.QueueSpec
