import Verif.QueueInv3
import Verif.Props.Queue2

/-! # C132: the order in which agents leave -/

set_option linter.unusedSectionVars false
set_option linter.unusedSimpArgs false
set_option linter.unusedVariables false

namespace Verif.QueueSpec

variable {T : Type*} [LinearOrder T] [OrderTop T] [Zero T]

/-- The number of servers stays one. -/
def StaysOne (_ : QS T) (op : QOp T) : Prop := ∀ n, op = .setServers n → n = .int 1

/-- With one server nobody overtakes. -/
structure OneInv (s : QS T) : Prop where
  one : s.numServers = .fin 1
  le : (inService s).length ≤ 1
  ord : stageIds 2 s.log ++ (inService s).map (·.id) = stageIds 1 s.log

theorem OneInv.step {c : QCfg T} {s s' : QS T} {op : QOp T} (hk : Simple c) (hq : QInv s) (h : OneInv s)
    (hok : StaysOne s op) (ho : OpOut c s op s') : OneInv s' := by
  cases ho with
  | ev s' r _ h1 =>
    cases h1 with
    | idle _ _ h2 => rw [h2]; exact h
    | dep a _ h2 _ =>
      obtain ⟨deps, g1, g2, g3⟩ := h2.served
      have hle := h.le
      have hord := h.ord
      simp only [inService] at hle hord
      have hl := g1.length_eq
      simp only [List.length_cons] at hl
      have h0 : agents deps = [] := List.length_eq_zero_iff.mp (by omega)
      rw [h0] at g1
      rw [List.perm_singleton.mp g1] at hord
      rcases g3 with ⟨b, rest, e1, e2, e3, -, e4, e5, -⟩ | ⟨e1, e2, -, e3, e4, -⟩
      · rw [h0] at e4
        have e4' := List.perm_singleton.mp e4
        refine ⟨by rw [h2.numServers, h.one], by rw [inService, e4']; simp, ?_⟩
        rw [inService, e4', e5]
        simp only [stageIds_append, stageIds_cons, stageIds_nil]
        simp [← hord]
      · refine ⟨by rw [h2.numServers, h.one], by rw [inService, e3, h0]; simp, ?_⟩
        rw [inService, e3, h0, e4]
        simp only [stageIds_append, stageIds_cons, stageIds_nil]
        simpa using hord
    | arr a rest _ _ _ h2 _ =>
      have hord := h.ord
      simp only [inService] at hord
      rcases h2.served with ⟨e1, e2, -, e3, e4, -⟩ | ⟨e1, e2, -, e3, e4, -⟩
      · rw [h.one] at e1
        simp only [Cap.le, decide_eq_true_eq] at e1
        have := hq.numSystem
        have h0 : agents s.departures = [] := List.length_eq_zero_iff.mp (by omega)
        rw [h0] at e3 hord
        have e3' := List.perm_singleton.mp e3
        refine ⟨by rw [h2.numServers, h.one], by rw [inService, e3']; simp, ?_⟩
        rw [inService, e3', e4]
        simp only [stageIds_append, stageIds_cons, stageIds_nil]
        simpa using hord
      · refine ⟨by rw [h2.numServers, h.one], by rw [inService, e3]; exact h.le, ?_⟩
        rw [inService, e3, e4]
        simp only [stageIds_append, stageIds_cons, stageIds_nil]
        simpa using hord
    | block a rest _ _ _ _ h2 _ =>
      exact ⟨by rw [h2.numServers, h.one], by rw [inService, h2.departures]; exact h.le,
        by rw [inService, h2.departures, h2.log]; exact h.ord⟩
  | already => exact h
  | act => exact ⟨h.one, h.le, h.ord⟩
  | inact => exact ⟨h.one, h.le, h.ord⟩
  | srv n s' r h1 =>
    cases h1 with
    | typ => exact h
    | val => exact h
    | ok new k deps hnew hag hkl h2 h3 =>
      have := hok n rfl
      subst this
      rcases hnew with ⟨m, hm, _, rfl⟩ | ⟨hm, _⟩
      swap
      · cases hm
      cases hm
      rw [h.one] at hag
      simp [agentsToQueue] at hag
      subst hag
      have hl := h3.length_eq
      simp [startServ] at h3 hl
      have hle := h.le
      have hord := h.ord
      simp only [inService] at hle hord
      refine ⟨rfl, by simp only [inService]; omega, ?_⟩
      simp only [inService, List.take_zero, List.map_nil, List.append_nil]
      have h4 : agents deps = agents s.departures := by
        match hd : agents s.departures, hle with
        | [], _ => rw [hd] at h3; exact List.perm_nil.mp h3
        | [x], _ => rw [hd] at h3; exact List.perm_singleton.mp h3
      rw [h4]; exact hord
  | delay t kb s' h1 =>
    cases h1 with
    | none => exact h
    | some a rest deps _ _ _ h4 h2 h3 =>
      have hle := h.le
      have hord := h.ord
      simp only [inService] at hle hord
      have hl := h4.length_eq
      simp only [List.length_cons] at hl
      have h0 : agents rest = [] := List.length_eq_zero_iff.mp (by omega)
      rw [h0] at h3 h4
      rw [List.perm_singleton.mp h4] at hord
      refine ⟨h.one, ?_, ?_⟩
      · simp only [inService]; rw [List.perm_singleton.mp h3]; simp
      · simp only [inService]; rw [List.perm_singleton.mp h3]; simpa using hord
  | collect => exact ⟨h.one, h.le, h.ord⟩
  | noteFull => exact ⟨h.one, h.le, h.ord⟩
  | noteOpen => exact h
  | clearData => exact ⟨h.one, h.le, h.ord⟩
  | clear =>
    rw [clear_simple c s hk]
    exact ⟨h.one, by simp [inService, agents], by simp [inService, agents]⟩
  | handover a arr h1 h2 h3 => exact ⟨h.one, h.le, h.ord⟩

/-- C132: with one server agents leave in the order in which they arrived: those that left, then the one in service,
then those that wait, are the agents that arrived, in the order of their arrival. -/
theorem C132_one_server {c : QCfg T} (hk : Simple c) (h1 : c.servers = .fin 1) {b : Bool} {s : QS T}
    (h : Reach c b StaysOne s) :
    stageIds 2 s.log ++ (inService s).map (·.id) ++ s.queue.map (·.id) = stageIds 0 s.log := by
  have hi : OneInv s ∧ QInv s := by
    refine h.induct (P := fun s => OneInv s ∧ QInv s) hk ⟨⟨h1, by simp [QS.init, inService], by simp [QS.init, inService]⟩,
      QInv.init c b⟩ fun _ _ _ hb hi hx ho => ⟨hi.1.step hk hi.2 hx ho, hi.2.step hk hb ho⟩
  rw [hi.1.ord]
  exact hi.2.fifo

/-- Services that start later end later. -/
def EndsInOrder (c : QCfg T) : Prop := ∀ i j s t, i < j → s ≤ t → t < ⊤ → c.serviceF i s < c.serviceF j t

/-- No departure is postponed. -/
def NoDelay (s : QS T) (op : QOp T) : Prop := ClockOk s op ∧ ∀ t k, op ≠ .delay t k

/-- The agents in service in the order in which their services started and end. -/
structure OrdInv (c : QCfg T) (s : QS T) (l : List (Agent T)) : Prop where
  perm : (inService s).Perm l
  sorted : l.Pairwise (·.time < ·.time)
  ord : stageIds 2 s.log ++ l.map (·.id) = stageIds 1 s.log
  now : s.currentT < ⊤
  from_ : ∀ a ∈ l, ∃ i t, i < s.svcCalls ∧ t ≤ s.currentT ∧ a.time = c.serviceF i t

theorem sorted_min {l r : List (Agent T)} {a : Agent T} (hs : l.Pairwise (·.time < ·.time)) (hp : (a :: r).Perm l)
    (hm : ∀ b ∈ r, a.time ≤ b.time) : ∃ l', l = a :: l' ∧ r.Perm l' := by
  cases l with
  | nil => simp at hp
  | cons x l =>
    have hx : x = a := by
      by_contra hne
      have h1 : a ∈ l := by
        rcases List.mem_cons.mp (hp.mem_iff.mp List.mem_cons_self) with h | h
        · exact absurd h.symm hne
        · exact h
      have h2 : x ∈ r := by
        rcases List.mem_cons.mp (hp.mem_iff.mpr List.mem_cons_self) with h | h
        · exact absurd h hne
        · exact h
      exact absurd ((List.pairwise_cons.mp hs).1 a h1) (not_lt.mpr (hm x h2))
    subst hx
    exact ⟨l, rfl, (List.perm_cons x).mp hp⟩

theorem startServ_from (c : QCfg T) (n : Nat) (t : T) (l : List (Agent T)) :
    ∀ a ∈ startServ c n t l, ∃ i, n ≤ i ∧ i < n + l.length ∧ a.time = c.serviceF i t := by
  induction l generalizing n with
  | nil => simp [startServ]
  | cons b l ih =>
    intro a ha
    simp only [startServ, List.mem_cons] at ha
    rcases ha with rfl | ha
    · exact ⟨n, le_rfl, by simp, rfl⟩
    · obtain ⟨i, h1, h2, h3⟩ := ih (n + 1) a ha
      exact ⟨i, by omega, by simp; omega, h3⟩

theorem startServ_sorted {c : QCfg T} (hc : EndsInOrder c) (n : Nat) (t : T) (ht : t < ⊤) (l : List (Agent T)) :
    (startServ c n t l).Pairwise (·.time < ·.time) := by
  induction l generalizing n with
  | nil => simp [startServ]
  | cons b l ih =>
    refine List.pairwise_cons.mpr ⟨fun a ha => ?_, ih (n + 1)⟩
    obtain ⟨i, h1, -, h3⟩ := startServ_from c (n + 1) t l a ha
    rw [h3]
    exact hc n i t t (by omega) le_rfl ht

theorem startServ_ids (c : QCfg T) (n : Nat) (t : T) (l : List (Agent T)) :
    (startServ c n t l).map (·.id) = l.map (·.id) := by
  induction l generalizing n with
  | nil => rfl
  | cons b l ih => simp [startServ, ih]

theorem OrdInv.step {c : QCfg T} {s s' : QS T} {op : QOp T} {l : List (Agent T)} (hk : Simple c) (hf : Forward c)
    (hc : EndsInOrder c) (hb : QBase s) (hcl : ClockInv s) (h : OrdInv c s l) (hok : NoDelay s op)
    (h0 : (0 : T) < ⊤) (ho : OpOut c s op s') : ∃ l', OrdInv c s' l' := by
  have hclk := (hcl.step hk hf hb hok.1 ho).2
  have old : ∀ {t : T} {n : Nat}, s.currentT ≤ t → s.svcCalls ≤ n → ∀ a ∈ l, ∃ i u, i < n ∧ u ≤ t ∧
      a.time = c.serviceF i u := by
    intro t n ht hn a ha
    obtain ⟨i, u, h1, h2, h3⟩ := h.from_ a ha
    exact ⟨i, u, by omega, h2.trans ht, h3⟩
  have lt : ∀ {t : T} {n : Nat}, s.currentT ≤ t → t < ⊤ → s.svcCalls ≤ n → ∀ a ∈ l, a.time < c.serviceF n t := by
    intro t n ht ht' hn a ha
    obtain ⟨i, u, h1, h2, h3⟩ := h.from_ a ha
    rw [h3]
    exact hc i n u t (by omega) (h2.trans ht) ht'
  have hperm := h.perm
  simp only [inService] at hperm
  cases ho with
  | ev s' r _ h1 =>
    have hclk := hclk (by simp)
    cases h1 with
    | idle _ _ h2 => rw [h2]; exact ⟨l, h⟩
    | dep a hlt h2 _ =>
      have hnow : a.time < ⊤ := by rw [h2.time_eq]; exact hlt.trans_le le_top
      obtain ⟨deps, g1, g2, g3⟩ := h2.served
      obtain ⟨l', rfl, hp⟩ := sorted_min h.sorted (g1.symm.trans hperm) (fun b hb' => by
        rw [h2.time_eq]; exact hb.okD.le b (g1.mem_iff.mpr (by simp [hb'])))
      have hord := h.ord
      rw [h2.currentT] at hclk
      rcases g3 with ⟨b, rest, e1, e2, e3, e3', e4, e5, -⟩ | ⟨e1, e2, e2', e3, e4, -⟩
      · refine ⟨l' ++ [{ b with time := c.serviceF s.svcCalls a.time }], ?_, ?_, ?_, by rw [h2.currentT]; exact hnow, ?_⟩
        · exact e4.trans ((List.Perm.cons _ hp).trans (List.perm_append_singleton _ _).symm)
        · refine List.pairwise_append.mpr ⟨(List.pairwise_cons.mp h.sorted).2, by simp, ?_⟩
          intro x hx y hy
          simp only [List.mem_singleton] at hy
          subst hy
          exact lt hclk hnow le_rfl x (by simp [hx])
        · rw [e5]
          simp only [stageIds_append, stageIds_cons, stageIds_nil]
          simp at hord ⊢
          simp [← hord]
        · intro x hx
          rw [e3', h2.currentT]
          rcases List.mem_append.mp hx with hx | hx
          · exact old hclk (by omega) x (by simp [hx])
          · simp only [List.mem_singleton] at hx
            subst hx
            exact ⟨s.svcCalls, a.time, by omega, le_rfl, rfl⟩
      · refine ⟨l', by rw [inService, e3]; exact hp, (List.pairwise_cons.mp h.sorted).2, ?_, by rw [h2.currentT]; exact hnow, ?_⟩
        · rw [e4]
          simp only [stageIds_append, stageIds_cons, stageIds_nil]
          simpa using hord
        · intro x hx
          rw [e2', h2.currentT]
          exact old hclk le_rfl x (by simp [hx])
    | arr a rest _ hlt _ h2 _ =>
      have hnow : a.time < ⊤ := by rw [h2.time_eq]; exact hlt
      have hord := h.ord
      rw [h2.currentT] at hclk
      rcases h2.served with ⟨e1, e2, e2', e3, e4, -⟩ | ⟨e1, e2, e2', e3, e4, -⟩
      · refine ⟨l ++ [{ a with time := c.serviceF s.svcCalls a.time }], ?_, ?_, ?_, by rw [h2.currentT]; exact hnow, ?_⟩
        · exact e3.trans ((List.Perm.cons _ hperm).trans (List.perm_append_singleton _ _).symm)
        · refine List.pairwise_append.mpr ⟨h.sorted, by simp, ?_⟩
          intro x hx y hy
          simp only [List.mem_singleton] at hy
          subst hy
          exact lt hclk hnow le_rfl x hx
        · rw [e4]
          simp only [stageIds_append, stageIds_cons, stageIds_nil]
          simp [← hord]
        · intro x hx
          rw [e2', h2.currentT]
          rcases List.mem_append.mp hx with hx | hx
          · exact old hclk (by omega) x hx
          · simp only [List.mem_singleton] at hx
            subst hx
            exact ⟨s.svcCalls, a.time, by omega, le_rfl, rfl⟩
      · refine ⟨l, by rw [inService, e3]; exact hperm, h.sorted, ?_, by rw [h2.currentT]; exact hnow, ?_⟩
        · rw [e4]
          simp only [stageIds_append, stageIds_cons, stageIds_nil]
          simpa using hord
        · intro x hx
          rw [e2', h2.currentT]
          exact old hclk le_rfl x hx
    | block a rest _ hlt _ _ h2 _ =>
      refine ⟨l, by rw [inService, h2.departures]; exact hperm, h.sorted, by rw [h2.log]; exact h.ord,
        by rw [h2.currentT, h2.time_eq]; exact hlt, ?_⟩
      rw [h2.svcCalls]
      exact old hclk le_rfl
  | already => exact ⟨l, h⟩
  | act => exact ⟨l, h.perm, h.sorted, h.ord, h.now, h.from_⟩
  | inact => exact ⟨l, h.perm, h.sorted, h.ord, h.now, h.from_⟩
  | srv n s' r h1 =>
    cases h1 with
    | typ => exact ⟨l, h⟩
    | val => exact ⟨l, h⟩
    | ok new k deps hnew hag hkl h2 h3 =>
      have hlen : (s.queue.take k).length = k := by simp [hkl]
      refine ⟨l ++ startServ c s.svcCalls s.currentT (s.queue.take k), ?_, ?_, ?_, h.now, ?_⟩
      · exact h3.trans ((List.Perm.append_left _ hperm).trans List.perm_append_comm)
      · refine List.pairwise_append.mpr ⟨h.sorted, startServ_sorted hc _ _ h.now _, ?_⟩
        intro x hx y hy
        obtain ⟨i, g1, -, g3⟩ := startServ_from c _ _ _ y hy
        rw [g3]
        exact lt le_rfl h.now g1 x hx
      · have hst : ∀ m, stageIds m ((s.queue.take k).map fun a => (a.id, 1)) =
            if 1 = m then (s.queue.take k).map (·.id) else [] := by
          intro m
          generalize s.queue.take k = q
          induction q with
          | nil => simp
          | cons x q ih => simp only [List.map_cons, stageIds_cons, ih]; split <;> simp
        simp only [stageIds_append, hst, List.map_append, startServ_ids]
        simp [← h.ord]
      · intro x hx
        rcases List.mem_append.mp hx with hx | hx
        · exact old le_rfl (by simp) x hx
        · obtain ⟨i, g1, g2, g3⟩ := startServ_from c _ _ _ x hx
          rw [hlen] at g2
          exact ⟨i, _, g2, le_rfl, g3⟩
  | delay t kb s' h1 => exact absurd rfl (hok.2 t kb)
  | collect => exact ⟨l, h.perm, h.sorted, h.ord, h.now, h.from_⟩
  | noteFull => exact ⟨l, h.perm, h.sorted, h.ord, h.now, h.from_⟩
  | noteOpen => exact ⟨l, h⟩
  | clearData => exact ⟨l, h.perm, h.sorted, h.ord, h.now, h.from_⟩
  | clear =>
    rw [clear_simple c s hk]
    exact ⟨[], by simp [inService, agents], by simp, by simp, h0, by simp⟩
  | handover a arr h1 h2 h3 => exact ⟨l, h.perm, h.sorted, h.ord, h.now, h.from_⟩

/-- C132: with any number of servers, if a service that starts later ends later and no departure is postponed, agents
leave in the order in which they arrived. -/
theorem C132_services_in_order {c : QCfg T} (hk : Simple c) (h0 : (0 : T) < ⊤) (ha : ∀ n t, t ≤ c.arrivalF n t)
    (hs : ∀ n t, t ≤ c.serviceF n t) (hc : ∀ i j s t, i < j → s ≤ t → t < ⊤ → c.serviceF i s < c.serviceF j t) {b : Bool}
    {s : QS T} (h : Reach c b NoDelay s) : stageIds 2 s.log <+: stageIds 0 s.log := by
  have hi : (∃ l, OrdInv c s l) ∧ QInv s ∧ ClockInv s := by
    refine h.induct (P := fun s => (∃ l, OrdInv c s l) ∧ QInv s ∧ ClockInv s) hk
      ⟨⟨[], by simp [QS.init, inService], by simp, by simp [QS.init], h0, by simp⟩, QInv.init c b, ?_⟩
      fun _ _ _ hb hi hx ho => ⟨?_, hi.2.1.step hk hb ho, (hi.2.2.step hk ⟨ha, hs⟩ hb hx.1 ho).1⟩
    · exact ⟨by simp [QS.init], by simp [QS.init]⟩
    · obtain ⟨l, hl⟩ := hi.1
      exact hl.step hk ⟨ha, hs⟩ hc hb hi.2.2 hx h0 ho
  obtain ⟨⟨l, hl⟩, hq, -⟩ := hi
  rw [← hq.fifo, ← hl.ord]
  exact ⟨l.map (·.id) ++ s.queue.map (·.id), by simp⟩

theorem reachOps_of {c : QCfg T} {b : Bool} {ok : QS T → QOp T → Prop} {ops : List (QOp T)}
    (hok : ∀ op ∈ ops, ∀ s, ok s op) (h : goodOps c b ops = true) : Reach c b ok (resOps c b ops) := by
  have hk : ∀ s, okOps c ok s ops := by
    clear h
    induction ops with
    | nil => exact fun s => trivial
    | cons op ops ih =>
      exact fun s => ⟨hok op (by simp) s, fun s' _ => ih (fun o ho => hok o (by simp [ho])) s'⟩
  unfold goodOps at h
  unfold resOps
  split at h
  · rename_i s hs
    exact Reach.init.ofOps ops (hk _) hs
  · simp at h

/-- Two servers; each service is longer than the one before. -/
def slower : QCfg ℕ∞ := { demo with servers := .fin 2, serviceF := fun i t => t + 3 + i }

example : (∀ n t, t ≤ slower.arrivalF n t) ∧ (∀ n t, t ≤ slower.serviceF n t) ∧
    ∀ i j s t, i < j → s ≤ t → t < ⊤ → slower.serviceF i s < slower.serviceF j t := by
  refine ⟨fun n t => le_self_add, fun n t => ?_, fun i j s t h1 h2 h3 => ?_⟩
  · show t ≤ t + 3 + n
    rw [add_assoc]; exact le_self_add
  · show s + 3 + i < t + 3 + j
    have hs : s < ⊤ := h2.trans_lt h3
    lift t to ℕ using h3.ne
    lift s to ℕ using hs.ne
    norm_cast at h2 ⊢
    omega

/-- One server: one agent left, one is in service, others wait; two servers: two left of six. -/
example :
    let ops : List (QOp ℕ∞) := .setActive :: List.replicate 8 .next
    Reach demo true StaysOne (resOps demo true ops) ∧ Reach slower true NoDelay (resOps slower true ops) ∧
    stageIds 2 (resOps demo true ops).log = [(7, 0)] ∧ stageIds 2 (resOps slower true ops).log = [(7, 0), (7, 1)] ∧
    stageIds 0 (resOps slower true ops).log = [(7, 0), (7, 1), (7, 2), (7, 3), (7, 4), (7, 5)] := by
  refine ⟨reachOps_of (by simp [StaysOne]) (by decide +kernel),
    reachOps_of (by simp [NoDelay, ClockOk]) (by decide +kernel), by decide +kernel, by decide +kernel, by decide +kernel⟩

/-- F54: constant services are not enough: four agents arrive one after another at a queue with one server, all services
take ten units; after `set_num_servers(9)` the services of three start at once, and the fourth agent leaves before the
third. -/
theorem C132_overtaking :
    let c : QCfg ℕ∞ := { demo with serviceF := fun _ t => t + 10 }
    let s := resOps c true ([.setActive, .next, .next, .next, .setInactive, .next, .setServers (.int 9)] ++
      List.replicate 4 .next)
    Reach c true NoDelay s ∧ s.created = [((7, 0), 1), ((7, 1), 2), ((7, 2), 3), ((7, 3), 4)] ∧
      stageIds 0 s.log = [(7, 0), (7, 1), (7, 2), (7, 3)] ∧ stageIds 2 s.log = [(7, 0), (7, 1), (7, 3), (7, 2)] := by
  refine ⟨reachOps_of (by simp [NoDelay, ClockOk]) (by decide +kernel), by decide +kernel, by decide +kernel,
    by decide +kernel⟩

/-- F54: agents that come at the same time are not admitted in the order in which they were put into the queue. -/
theorem C132_equal_arrivals :
    let s := resOps demo true ((List.range 4).map (fun i => .handover ⟨(3, i), 1, 0, .plain⟩) ++ List.replicate 4 .next)
    Reach demo true StaysOne s ∧ stageIds 0 s.log = [(3, 0), (3, 1), (3, 3), (3, 2)] := by
  refine ⟨reachOps_of (by rintro op ho s n rfl; simp at ho) (by decide +kernel), by decide +kernel⟩

end Verif.QueueSpec
