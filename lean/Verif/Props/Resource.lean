import Verif.Resource
import Verif.Props.Queue1

/-! # Properties C68, C69 and C75: ResourceQueue -/

set_option linter.unusedSectionVars false
set_option linter.unusedVariables false

namespace Verif.ResourceSpec

open QueueSpec

variable {T : Type*} [LinearOrder T] [OrderTop T] [Zero T]

/-! ## C75: census -/

/-- C75: at a ResourceQueue `num_system` = waiting + in service, `_num_total` = scheduled + waiting + in service,
every agent admitted has departed, waits or is in service, and `num_arrivals` counts the admitted agents and some of
the blocked ones. Every agent starts service at most once, and departs at most once. -/
theorem C75_census {c : QCfg T} (hk : c.kind = .resource) {b : Bool} {s : QS T} (h : Reach c b anyOp s) :
    s.numSystem = (numberQueued c s : Int) + (inService s).length ∧
    s.numTotal = ((agents s.arrivals).length + s.queue.length + (inService s).length : Nat) ∧
    (s.numDepartures + s.numSystem ≤ (s.numArrivals : Int) ∧
      (s.numArrivals : Int) ≤ s.numDepartures + s.numSystem + s.numBlocked) ∧
    (stageIds 0 s.log).Perm (stageIds 2 s.log ++ (inService s).map (·.id) ++ s.queue.map (·.id)) := by
  have hi := h.rinv hk
  refine ⟨?_, ?_, ⟨hi.countsLe, hi.countsGe⟩, hi.line.trans (hi.once.append_right _)⟩
  · simp only [numberQueued, hk, reduceCtorEq, if_false]; exact hi.numSystem
  · rw [hi.numTotal, hi.numSystem]; simp only [inService]; push_cast; omega

/-- C75: `next_event` of a ResourceQueue never raises. -/
theorem C75_no_error {c : QCfg T} (hk : c.kind = .resource) {b : Bool} {s : QS T} (h : Reach c b anyOp s) :
    ∃ s' r, nextEvent c s = .ok (s', r) := by
  obtain ⟨s', r, h1, -⟩ := nextEvent_res c s hk (h.baseR hk).okA (h.baseR hk).okD
  exact ⟨s', r, h1⟩

/-! ## C69: over_max -/

/-- The number of `v` with `new <= v < old` and `v > cap`: the values above `cap` met on the way down from `old` to
`new`, in steps of one. -/
def above (cap : Cap) (old new : Int) : Nat :=
  ((List.range (old - new).toNat).filter fun i : Nat => (Cap.fin (new + i)).gt cap).length

theorem above_self (cap : Cap) (n : Int) : above cap n n = 0 := by simp [above]

theorem above_step (cap : Cap) {old new : Int} (h : new ≤ old) :
    above cap old (new - 1) = above cap old new + (if (Cap.fin (new - 1)).gt cap then 1 else 0) := by
  unfold above
  have : (old - (new - 1)).toNat = (old - new).toNat + 1 := by omega
  rw [this, List.range_succ_eq_map, List.filter_cons]
  have e : ((List.map Nat.succ (List.range (old - new).toNat)).filter
      fun i : Nat => (Cap.fin (new - 1 + i)).gt cap).length =
      ((List.range (old - new).toNat).filter fun i : Nat => (Cap.fin (new + i)).gt cap).length := by
    rw [List.filter_map, List.length_map]
    congr 1
    refine List.filter_congr fun i _ => ?_
    simp only [Function.comp, Nat.succ_eq_add_one]
    congr 2; push_cast; omega
  have z : (new - 1 + ((0 : Nat) : Int)) = new - 1 := by omega
  rw [z]
  split
  · simp [e]
  · simp only [e]; omega

/-- `k` calls of `queue_action` lower a finite number of servers by `j <= k`. -/
theorem act_fin {c : QCfg T} {k k' : AgentKind} {n n' : Cap} {om om' : Nat} (h : Act c k n om k' n' om')
    {top m : Int} {om0 : Nat} (hn : n = .fin m) (hle : m ≤ top) (hom : om = om0 + above c.maxServers top m) :
    ∃ m', n' = .fin m' ∧ m - 1 ≤ m' ∧ m' ≤ m ∧ (0 ≤ m → 0 ≤ m') ∧ om' = om0 + above c.maxServers top m' := by
  subst hn hom
  cases h with
  | other => exact ⟨m, rfl, by omega, le_rfl, id, rfl⟩
  | drop => exact ⟨m, rfl, by omega, le_rfl, id, rfl⟩
  | take had n om hp =>
    simp only [Cap.lt, decide_eq_true_eq] at hp
    refine ⟨m - 1, by simp [Cap.addInt, Int.sub_eq_add_neg], le_rfl, by omega, by omega, ?_⟩
    rw [above_step _ hle]
    simp only [Cap.addInt, Nat.add_assoc]
    rfl
  | stuck => exact ⟨m, rfl, by omega, le_rfl, id, rfl⟩

/-- C69: in any state, with finitely many servers, an event of a ResourceQueue either raises the number of servers
by one, or lowers it by 0, 1 or 2 in steps of one. `over_max` grows by the number of the values met that exceed
`max_servers`. The number of servers stays non-negative if it is. -/
theorem C69_over_max {c : QCfg T} (hk : c.kind = .resource) {b : Bool} {s s' : QS T} {r : Option (Agent T)}
    (h : Reach c b anyOp s) {n : Int} (hn : s.numServers = .fin n) (hr : nextEvent c s = .ok (s', r)) :
    ∃ n', s'.numServers = .fin n' ∧
      (n' = n + 1 ∧ s'.overMax = s.overMax + (if (Cap.fin n').gt c.maxServers then 1 else 0) ∨
        n - 2 ≤ n' ∧ n' ≤ n ∧ (0 ≤ n → 0 ≤ n') ∧ s'.overMax = s.overMax + above c.maxServers n n') := by
  obtain ⟨s1, r1, h1, h2⟩ := nextEvent_res c s hk (h.baseR hk).okA (h.baseR hk).okD
  rw [h1] at hr
  simp only [Except.ok.injEq, Prod.mk.injEq] at hr
  obtain ⟨rfl, rfl⟩ := hr
  have h0 : s.overMax = s.overMax + above c.maxServers n n := by rw [above_self]; rfl
  cases h2 with
  | idle _ _ h2 => exact ⟨n, by rw [h2, hn], .inr ⟨by omega, le_rfl, id, by rw [h2]; exact h0⟩⟩
  | dep a a' _ h2 =>
    obtain ⟨deps, g1, g2, ⟨x, rest, k, m, om, -, -, a1, a2, -⟩ | ⟨-, a1, -⟩⟩ := h2.served
    · obtain ⟨m1, rfl, b1, b2, b3, b4⟩ := act_fin a1 hn le_rfl h0
      obtain ⟨m2, e2, c1, c2, c3, c4⟩ := act_fin a2 rfl b2 b4
      exact ⟨m2, e2, .inr ⟨by omega, by omega, fun h => c3 (b3 h), c4⟩⟩
    · obtain ⟨m1, e1, b1, b2, b3, b4⟩ := act_fin a1 hn le_rfl h0
      exact ⟨m1, e1, .inr ⟨by omega, by omega, b3, b4⟩⟩
  | arr a rest _ _ _ _ h2 =>
    obtain ⟨k, m, om, a1, ⟨k', -, -, a2, -⟩ | ⟨-, -, e1, e2, -⟩⟩ := h2.served
    · obtain ⟨m1, rfl, b1, b2, b3, b4⟩ := act_fin a1 hn le_rfl h0
      obtain ⟨m2, e2, c1, c2, c3, c4⟩ := act_fin a2 rfl b2 b4
      exact ⟨m2, e2, .inr ⟨by omega, by omega, fun h => c3 (b3 h), c4⟩⟩
    · obtain ⟨m1, rfl, b1, b2, b3, b4⟩ := act_fin a1 hn le_rfl h0
      exact ⟨m1, e1, .inr ⟨by omega, by omega, b3, by rw [e2]; exact b4⟩⟩
  | block a rest _ _ _ _ _ h2 => 
    exact ⟨n, by rw [h2.numServers, hn], .inr ⟨by omega, le_rfl, id, by rw [h2.overMax]; exact h0⟩⟩
  | deposit a had _ _ _ _ e1 e2 =>
    refine ⟨n + 1, by rw [e1, hn]; rfl, .inl ⟨rfl, by rw [e2, hn]; rfl⟩⟩
  | full a had _ _ _ _ _ e1 e2 =>
    exact ⟨n, by rw [e1, hn], .inr ⟨by omega, le_rfl, id, by rw [e2]; exact h0⟩⟩

/-- The number of servers and `over_max` after a call other than `next_event`. -/
def settings (c : QCfg T) (s : QS T) : QOp T → Cap × Nat
  | .setServers (.int k) => (.fin k, s.overMax + if (Cap.fin k).gt c.maxServers then 1 else 0)
  | .setServers .infty => (.inf, s.overMax + if Cap.inf.gt c.maxServers then 1 else 0)
  | .clear => (s.numServers, 0)
  | _ => (s.numServers, s.overMax)

/-- C69: `set_num_servers(n)` counts if `n` exceeds `max_servers`; no other call but `next_event` changes the number
of servers or `over_max`, except that `clear` sets `over_max` to zero. -/
theorem C69_other_calls {c : QCfg T} (hk : c.kind = .resource) {b : Bool} {s s' : QS T} (h : Reach c b anyOp s)
    {op : QOp T} (hop : op ≠ .next) (hr : op.run c s = .ok s') :
    (s'.numServers, s'.overMax) = settings c s op := by
  cases rOut c s s' op hk (h.baseR hk) hr with
  | ev => exact absurd rfl hop
  | srv n m h1 =>
    rcases h1 with ⟨k, rfl, rfl⟩ | ⟨rfl, rfl⟩ <;> rfl
  | delay t kb s' h1 => cases h1 <;> rfl
  | _ => rfl

/-- 1 for a ResourceAgent without a resource. -/
def wants : AgentKind → Nat
  | .resource false _ => 1
  | _ => 0

theorem act_inf {c : QCfg T} {k k' : AgentKind} {n' : Cap} {om om' : Nat} (h : Act c k .inf om k' n' om') :
    n' = .inf ∧ om' = om + (if Cap.inf.gt c.maxServers then wants k else 0) := by
  cases h with
  | other k _ _ hk =>
    refine ⟨rfl, ?_⟩
    cases k with
    | resource has had => exact absurd rfl (hk has had)
    | _ => simp [wants]
  | drop => simp [wants]
  | take => exact ⟨rfl, rfl⟩
  | stuck _ _ _ h => simp [Cap.lt] at h

/-- Class and flags of the first agent in a heap. -/
def firstKind (l : List (Slot T)) : AgentKind :=
  match l.head? with
  | some (.agent a) => a.kind
  | _ => .plain

/-- The number of times an event sets the number of servers, if there are infinitely many: once for a departing
agent that is a ResourceAgent without a resource, once for such an agent that starts service from the line, and once
for an arriving ResourceAgent. -/
def settingsInf (s : QS T) : Nat :=
  if headTime s.departures < headTime s.arrivals then
    wants (firstKind s.departures) + (match s.queue with | [] => 0 | b :: _ => wants b.kind)
  else if headTime s.arrivals < ⊤ then
    match firstKind s.arrivals with
    | .resource _ _ => 1
    | _ => 0
  else 0

/-- C69, infinitely many servers: they stay infinitely many, and if `max_servers` is finite then `over_max` grows
whenever the number is set. -/
theorem C69_over_max_infinite {c : QCfg T} (hk : c.kind = .resource) {b : Bool} {s s' : QS T}
    {r : Option (Agent T)} (h : Reach c b anyOp s) (hn : s.numServers = .inf) (hr : nextEvent c s = .ok (s', r)) :
    s'.numServers = .inf ∧
    s'.overMax = s.overMax + (if Cap.inf.gt c.maxServers then settingsInf s else 0) := by
  obtain ⟨s1, r1, h1, h2⟩ := nextEvent_res c s hk (h.baseR hk).okA (h.baseR hk).okD
  rw [h1] at hr
  simp only [Except.ok.injEq, Prod.mk.injEq] at hr
  obtain ⟨rfl, rfl⟩ := hr
  unfold settingsInf
  cases h2 with
  | idle e1 e2 h2 => rw [h2]; exact ⟨hn, by simp [e1, e2]⟩
  | dep a a' hlt h2 =>
    rw [if_pos hlt]
    have hf : firstKind s.departures = a.kind := by simp [firstKind, h2.head]
    rw [hf]
    obtain ⟨deps, g1, g2, ⟨x, rest, k, m, om, hq, -, a1, a2, -⟩ | ⟨hq, a1, -⟩⟩ := h2.served
    · rw [hn] at a1
      obtain ⟨rfl, rfl⟩ := act_inf a1
      obtain ⟨e1, e2⟩ := act_inf a2
      refine ⟨e1, ?_⟩
      rw [e2, hq]
      split <;> simp
      omega
    · rw [hn] at a1 hq
      obtain ⟨e1, e2⟩ := act_inf a1
      have hq' : s.queue = [] := by simpa [Cap.lt] using hq
      exact ⟨e1, by rw [e2, hq']; rfl⟩
  | arr a rest hge hlt _ hres h2 =>
    rw [if_neg (not_lt.mpr hge), if_pos hlt]
    have hf : firstKind s.arrivals = a.kind := by simp [firstKind, h2.head]
    rw [hf]
    have key : ∀ k k' om n om', Act c a.kind .inf s.overMax k .inf om → Act c k .inf om k' n om' →
        om' = s.overMax + (if Cap.inf.gt c.maxServers then
          (match a.kind with | .resource _ _ => 1 | _ => 0) else 0) := by
      intro k k' om n om' a1 a2
      have e1 := (act_inf a1).2
      have e2 := (act_inf a2).2
      rw [e2, e1]
      cases hka : a.kind with
      | resource has had =>
        obtain ⟨rfl, -⟩ := hres has had hka
        rw [hka] at a1
        cases a1 with
        | other _ _ _ hx => exact absurd rfl (hx _ _)
        | take => simp [wants]
        | stuck _ _ _ hx => simp [Cap.lt] at hx
      | plain => rw [hka] at a1; cases a1; simp [wants]
      | greedy => rw [hka] at a1; cases a1; simp [wants]
    obtain ⟨k, m, om, a1, ⟨k', -, -, a2, -⟩ | ⟨hx, -, e1, e2, -⟩⟩ := h2.served
    · rw [hn] at a1
      obtain ⟨rfl, -⟩ := act_inf a1
      exact ⟨(act_inf a2).1, key _ _ _ _ _ a1 a2⟩
    · rw [hn] at a1
      obtain ⟨rfl, -⟩ := act_inf a1
      simp [Cap.le] at hx
  | block a rest _ _ hx => rw [hn] at hx; simp [Cap.add, Cap.lt] at hx
  | deposit a had hge hlt hka h2 e1 e2 =>
    rw [if_neg (not_lt.mpr hge), if_pos hlt]
    have hf : firstKind s.arrivals = a.kind := by simp [firstKind, h2.head]
    rw [hf, hka, e1, e2, hn]
    exact ⟨rfl, rfl⟩
  | full a had _ _ _ hx => rw [hn] at hx; simp [Cap.lt] at hx

/-- C69: the number of servers never becomes negative, unless someone asks for it. -/
theorem C69_nonneg {c : QCfg T} (hk : c.kind = .resource) (h0 : ∀ m, c.servers = .fin m → 0 ≤ m) {b : Bool} {s : QS T}
    (h : Reach c b (fun _ op => ∀ k, op = .setServers (.int k) → 0 ≤ k) s) :
    ∀ m, s.numServers = .fin m → 0 ≤ m := by
  have weaken : ∀ {s : QS T}, Reach c b (fun _ op => ∀ k, op = .setServers (.int k) → 0 ≤ k) s →
      Reach c b anyOp s := by
    intro s h
    induction h with
    | init => exact .init
    | step op _ _ hr ih => exact ih.step op trivial hr
  induction h with
  | init => exact h0
  | @step s s' op h1 hok hr ih =>
    intro m hm
    by_cases hop : op = .next
    · subst hop
      simp only [QOp.run] at hr
      split at hr
      · simp at hr
      · rename_i s1 r hev
        simp only [Except.ok.injEq] at hr
        subst hr
        cases hn : s.numServers with
        | fin n =>
          obtain ⟨n', e1, h2⟩ := C69_over_max hk (weaken h1) hn hev
          have := ih n hn
          rw [hm] at e1
          simp only [Cap.fin.injEq] at e1
          subst e1
          rcases h2 with ⟨h2, -⟩ | ⟨-, -, h2, -⟩
          · omega
          · exact h2 this
        | inf => rw [(C69_over_max_infinite hk (weaken h1) hn hev).1] at hm; simp at hm
    · have := C69_other_calls hk (weaken h1) hop hr
      cases op with
      | setServers n =>
        cases n with
        | int k =>
          have h3 := hok k rfl
          simp only [settings, Prod.mk.injEq] at this
          rw [hm] at this
          simp only [Cap.fin.injEq] at this
          omega
        | infty => simp only [settings, Prod.mk.injEq] at this; rw [hm] at this; simp at this
        | other => simp only [settings, Prod.mk.injEq] at this; exact ih m (this.1 ▸ hm)
      | _ => simp only [settings, Prod.mk.injEq] at this; exact ih m (this.1 ▸ hm)


/-! ## C68: what a visit does -/

/-- Waiting ResourceAgents carry a resource, those in service do not. -/
structure Flags (s : QS T) : Prop where
  waiting : ∀ a ∈ s.queue, ∀ has had, a.kind = .resource has had → has = true
  serving : ∀ a ∈ agents s.departures, ∀ has had, a.kind = .resource has had → has = false ∧ had = true

theorem act_drop {c : QCfg T} {k k' : AgentKind} {n n' : Cap} {om om' : Nat} (h : Act c k n om k' n' om')
    (hk : ∀ has had, k = .resource has had → has = true) :
    n' = n ∧ (∀ has had, k' = .resource has had → has = false ∧ had = true) ∧
      ((∀ has had, k ≠ .resource has had) → k' = k) := by
  cases h with
  | other _ _ _ hx => exact ⟨rfl, fun has had he => absurd he (hx has had), fun _ => rfl⟩
  | drop => exact ⟨rfl, fun has had he => by simp at he; exact he, fun hx => absurd rfl (hx _ _)⟩
  | take had => have := hk false had rfl; simp at this
  | stuck had => have := hk false had rfl; simp at this

theorem act_take {c : QCfg T} {k k' : AgentKind} {n n' : Cap} {om om' : Nat} (h : Act c k n om k' n' om')
    (hk : ∀ has had, k = .resource has had → has = false) :
    ((∀ has had, k ≠ .resource has had) → k' = k ∧ n' = n) ∧
    (∀ has had, k = .resource has had → if Cap.lt 0 n then k' = .resource true false ∧ n' = n.addInt (-1)
      else k' = k ∧ n' = n) := by
  cases h with
  | other _ _ _ hx => exact ⟨fun _ => ⟨rfl, rfl⟩, fun has had he => absurd he (hx has had)⟩
  | drop had => have := hk true had rfl; simp at this
  | take had _ _ hl => exact ⟨fun hx => absurd rfl (hx _ _), fun has had he => by rw [if_pos hl]; exact ⟨rfl, rfl⟩⟩
  | stuck had _ _ hl =>
    exact ⟨fun hx => absurd rfl (hx _ _), fun has had he => by simp [hl]⟩

theorem Reach.flags {c : QCfg T} {b : Bool} {ok : QS T → QOp T → Prop} {s : QS T} (hk : c.kind = .resource)
    (h : Reach c b ok s) : Flags s ∧ RInv s := by
  refine h.inductR (P := fun s => Flags s ∧ RInv s) hk ⟨⟨by simp [QS.init], by simp [QS.init, agents]⟩, ?_⟩ ?_
  · exact (Reach.init (c := c) (b := b) (ok := ok)).rinv hk
  intro s s' op hb ⟨hf, hi⟩ _ ho
  refine ⟨?_, hi.step ho⟩
  obtain ⟨f1, f2⟩ := hf
  cases ho with
  | ev s' r _ h1 =>
    cases h1 with
    | idle _ _ h2 => rw [h2]; exact ⟨f1, f2⟩
    | dep a a' _ h2 =>
      obtain ⟨deps, g1, g2, ⟨x, rest, k, m, om, hq, -, a1, a2, e1, e2, -⟩ | ⟨hq, a1, e1, e2, -⟩⟩ := h2.served
      · refine ⟨fun y hy => f1 y (by rw [hq]; rw [e1] at hy; exact List.mem_cons_of_mem _ hy), ?_⟩
        intro y hy
        rcases List.mem_cons.mp (e2.mem_iff.mp hy) with rfl | hy
        · exact (act_drop a1 (f1 x (by rw [hq]; simp))).2.1
        · exact f2 y (g1.mem_iff.mpr (List.mem_cons_of_mem _ hy))
      · refine ⟨by rw [e1]; exact f1, fun y hy => f2 y (g1.mem_iff.mpr (List.mem_cons_of_mem _ (by rw [← e2]; exact hy)))⟩
    | arr a rest _ _ _ hres h2 =>
      have hpos : (∃ has had, a.kind = .resource has had) → Cap.lt 0 s.numServers = true := by
        rintro ⟨has, had, hka⟩
        have h3 := (hres has had hka).2
        have h4 : 0 ≤ s.numSystem := by rw [hi.numSystem]; omega
        cases hn : s.numServers with
        | inf => rfl
        | fin n => rw [hn] at h3; simp only [Cap.lt, decide_eq_true_eq] at h3 ⊢; omega
      have htake : ∀ k n om, Act c a.kind s.numServers s.overMax k n om →
          ∀ has had, k = .resource has had → has = true := by
        intro k n om a1 has had hk'
        have := act_take a1 (fun has had hka => (hres has had hka).1)
        by_cases hx : ∃ has had, a.kind = .resource has had
        · obtain ⟨has', had', hx'⟩ := hx
          have h5 := this.2 has' had' hx'
          rw [if_pos (hpos ⟨_, _, hx'⟩)] at h5
          rw [h5.1] at hk'
          simp at hk'
          exact hk'.1
        · have h5 := this.1 (fun has had hc => hx ⟨has, had, hc⟩)
          rw [h5.1] at hk'
          exact absurd ⟨has, had, hk'⟩ hx
      obtain ⟨k, m, om, a1, ⟨k', -, e1, a2, e2, -⟩ | ⟨-, e1, -, -, e2, -⟩⟩ := h2.served
      · refine ⟨by rw [e1]; exact f1, ?_⟩
        intro y hy
        rcases List.mem_cons.mp (e2.mem_iff.mp hy) with rfl | hy
        · exact (act_drop a2 (htake k m om a1)).2.1
        · exact f2 y hy
      · refine ⟨?_, by rw [e2]; exact f2⟩
        intro y hy
        rw [e1] at hy
        rcases List.mem_append.mp hy with hy | hy
        · exact f1 y hy
        · simp only [List.mem_singleton] at hy
          subst hy
          exact htake k m om a1
    | block a rest _ _ _ _ _ h2 => exact ⟨by rw [h2.queue]; exact f1, by rw [h2.departures]; exact f2⟩
    | deposit a had _ _ _ h2 => exact ⟨by rw [h2.queue]; exact f1, by rw [h2.departures]; exact f2⟩
    | full a had _ _ _ _ h2 => exact ⟨by rw [h2.queue]; exact f1, by rw [h2.departures]; exact f2⟩
  | delay t kb s' h1 =>
    cases h1 with
    | none => exact ⟨f1, f2⟩
    | some a rest deps _ _ _ h4 _ h3 =>
      refine ⟨f1, ?_⟩
      intro y hy
      rcases List.mem_cons.mp (h3.mem_iff.mp hy) with rfl | hy
      · exact f2 a (h4.mem_iff.mpr (by simp))
      · exact f2 y (h4.mem_iff.mpr (List.mem_cons_of_mem _ hy))
  | clear => exact ⟨by simp, by simp [agents]⟩
  | _ => exact ⟨f1, f2⟩

/-- The number of servers after an event, when there are `n`. A departing ResourceAgent takes a server if there is
one. A ResourceAgent that arrives with a resource adds a server; one that arrives without takes a server if it is
admitted. Other agents do not matter. -/
def serversAfter (c : QCfg T) (s : QS T) (n : Int) : Int :=
  if headTime s.departures < headTime s.arrivals then
    match firstKind s.departures with
    | .resource _ _ => if 0 < n then n - 1 else n
    | _ => n
  else if headTime s.arrivals < ⊤ then
    match firstKind s.arrivals with
    | .resource true _ => n + 1
    | .resource false _ => if s.numSystem < n ∧ ((Cap.fin n).add c.buffer).lt s.numSystem = true then n - 1 else n
    | _ => n
  else n

/-- C68, what is true: the number of servers changes as in `serversAfter`. So the visit of a ResourceAgent that
arrives without a resource takes one server on arrival, and another one (if there is one) on departure, when the
agent leaves with a resource. FALSE in the full property: that a visit takes one server only, see
`C68_visit_takes_two`. -/
theorem C68_servers_partial {c : QCfg T} (hk : c.kind = .resource) {b : Bool} {s s' : QS T} {r : Option (Agent T)}
    (h : Reach c b anyOp s) {n : Int} (hn : s.numServers = .fin n) (hr : nextEvent c s = .ok (s', r)) :
    s'.numServers = .fin (serversAfter c s n) ∧
    ∀ a, r = some a → ∀ has had, a.kind = .resource has had → (has = true ↔ 0 < n) := by
  obtain ⟨⟨f1, f2⟩, hi⟩ := Reach.flags hk h
  have hns : 0 ≤ s.numSystem := by rw [hi.numSystem]; omega
  obtain ⟨s1, r1, h1, h2⟩ := nextEvent_res c s hk (h.baseR hk).okA (h.baseR hk).okD
  rw [h1] at hr
  simp only [Except.ok.injEq, Prod.mk.injEq] at hr
  obtain ⟨rfl, rfl⟩ := hr
  unfold serversAfter
  cases h2 with
  | idle e1 e2 h2 => rw [h2, e1, e2, hn]; simp
  | dep a a' hlt h2 =>
    rw [if_pos hlt]
    have hf : firstKind s.departures = a.kind := by simp [firstKind, h2.head]
    rw [hf]
    have hser := f2 a (by obtain ⟨deps, g1, -⟩ := h2.served; exact g1.mem_iff.mpr (by simp))
    have key : ∀ (om : Nat) (n' : Cap) (om' : Nat), Act c a.kind (.fin n) om a'.kind n' om' →
        n' = .fin (match a.kind with | .resource _ _ => if 0 < n then n - 1 else n | _ => n) ∧
        ∀ has had, a'.kind = .resource has had → (has = true ↔ 0 < n) := by
      intro om n' om' h3
      obtain ⟨t1, t2⟩ := act_take h3 (fun has had he => (hser has had he).1)
      cases hka : a.kind with
      | resource has had =>
        have h4 := t2 has had hka
        simp only [Cap.lt, decide_eq_true_eq] at h4
        by_cases h0 : 0 < n
        · rw [if_pos h0] at h4
          simp only [h0, if_true, h4.2]
          refine ⟨by simp [Cap.addInt, Int.sub_eq_add_neg], fun has' had' he => ?_⟩
          rw [h4.1] at he; simp at he; simp [he.1]
        · rw [if_neg h0] at h4
          simp only [h0, if_false, h4.2]
          refine ⟨trivial, fun has' had' he => ?_⟩
          rw [h4.1] at he
          simp [(hser has' had' he).1]
      | plain =>
        obtain ⟨h4, h5⟩ := t1 (by rw [hka]; simp)
        exact ⟨h5, fun has had he => by rw [h4, hka] at he; simp at he⟩
      | greedy =>
        obtain ⟨h4, h5⟩ := t1 (by rw [hka]; simp)
        exact ⟨h5, fun has had he => by rw [h4, hka] at he; simp at he⟩
    obtain ⟨deps, g1, g2, ⟨x, rest, k, m, om, hq, -, a1, a2, e1, e2, -⟩ | ⟨hq, a1, e1, e2, -⟩⟩ := h2.served
    · obtain ⟨rfl, -⟩ := act_drop a1 (f1 x (by rw [hq]; simp))
      rw [hn] at a2
      obtain ⟨q1, q2⟩ := key _ _ _ a2
      exact ⟨q1, fun y hy => by simp only [Option.some.injEq] at hy; subst hy; exact q2⟩
    · rw [hn] at a1
      obtain ⟨q1, q2⟩ := key _ _ _ a1
      exact ⟨q1, fun y hy => by simp only [Option.some.injEq] at hy; subst hy; exact q2⟩
  | arr a rest hge hlt hroom hres h2 =>
    rw [if_neg (not_lt.mpr hge), if_pos hlt]
    have hf : firstKind s.arrivals = a.kind := by simp [firstKind, h2.head]
    rw [hf]
    refine ⟨?_, by simp⟩
    have key : ∀ k n' om, Act c a.kind s.numServers s.overMax k n' om →
        n' = .fin (match a.kind with
          | .resource true _ => n + 1
          | .resource false _ =>
            if s.numSystem < n ∧ ((Cap.fin n).add c.buffer).lt s.numSystem = true then n - 1 else n
          | _ => n) ∧ ∀ has had, k = .resource has had → has = true := by
      intro k n' om h3
      rw [hn] at h3
      obtain ⟨t1, t2⟩ := act_take h3 (fun has had he => (hres has had he).1)
      cases hka : a.kind with
      | resource has had =>
        obtain ⟨rfl, h5⟩ := hres has had hka
        rw [hn] at h5 hroom
        have h4 := t2 false had hka
        simp only [Cap.lt, decide_eq_true_eq] at h4 h5
        rw [if_pos (by omega)] at h4
        simp only [h5, hroom, and_self, if_true]
        refine ⟨by rw [h4.2]; simp [Cap.addInt, Int.sub_eq_add_neg], fun has' had' he => ?_⟩
        rw [h4.1] at he; simp at he; exact he.1
      | plain =>
        obtain ⟨h4, h5⟩ := t1 (by rw [hka]; simp)
        exact ⟨h5, fun has had he => by rw [h4, hka] at he; simp at he⟩
      | greedy =>
        obtain ⟨h4, h5⟩ := t1 (by rw [hka]; simp)
        exact ⟨h5, fun has had he => by rw [h4, hka] at he; simp at he⟩
    obtain ⟨k, m, om, a1, ⟨k', -, e1, a2, e2, -⟩ | ⟨-, e1, e3, -, e2, -⟩⟩ := h2.served
    · obtain ⟨q1, q2⟩ := key _ _ _ a1
      rw [(act_drop a2 q2).1]; exact q1
    · rw [e3]; exact (key _ _ _ a1).1
  | block a rest hge hlt hroom hres hhead h2 =>
    rw [if_neg (not_lt.mpr hge), if_pos hlt]
    have hf : firstKind s.arrivals = a.kind := by simp [firstKind, hhead]
    rw [hf, h2.numServers, hn]
    rw [hn] at hroom
    refine ⟨?_, by simp⟩
    cases hka : a.kind with
    | resource has had =>
      obtain ⟨rfl, -⟩ := hres has had hka
      simp [hroom]
    | plain => rfl
    | greedy => rfl
  | deposit a had hge hlt hka h2 e1 e2 =>
    rw [if_neg (not_lt.mpr hge), if_pos hlt]
    have hf : firstKind s.arrivals = a.kind := by simp [firstKind, h2.head]
    rw [hf, hka, e1, hn]
    exact ⟨rfl, by simp⟩
  | full a had hge hlt hka hx h2 e1 =>
    rw [if_neg (not_lt.mpr hge), if_pos hlt]
    have hf : firstKind s.arrivals = a.kind := by simp [firstKind, h2.head]
    rw [hn] at hx
    simp only [Cap.lt, decide_eq_false_iff_not] at hx
    rw [hf, hka, e1, hn]
    simp [hx]

/-- C68: a ResourceAgent that arrives with a resource leaves it and is deleted: one more server, one agent less in
all, nobody else affected. -/
theorem C68_deposit_partial {c : QCfg T} (hk : c.kind = .resource) {b : Bool} {s s' : QS T} {r : Option (Agent T)}
    (h : Reach c b anyOp s) {a : Agent T} {had : Bool} (ha : s.arrivals.head? = some (.agent a))
    (hkind : a.kind = .resource true had) (hle : a.time ≤ headTime s.departures) (hfin : a.time < ⊤)
    (hr : nextEvent c s = .ok (s', r)) :
    s'.numServers = s.numServers.addInt 1 ∧ (agents s.arrivals).Perm (a :: agents s'.arrivals) ∧
    s'.queue = s.queue ∧ s'.departures = s.departures ∧ s'.numTotal = s.numTotal - 1 ∧
    s'.numArrivals = s.numArrivals ∧ s'.numBlocked = s.numBlocked ∧ r = none := by
  obtain ⟨s1, r1, h1, h2⟩ := nextEvent_res c s hk (h.baseR hk).okA (h.baseR hk).okD
  rw [h1] at hr
  simp only [Except.ok.injEq, Prod.mk.injEq] at hr
  obtain ⟨rfl, rfl⟩ := hr
  have hh : headTime s.arrivals = a.time := by
    cases hd : s.arrivals with
    | nil => rw [hd] at ha; simp at ha
    | cons x l => rw [hd] at ha; simp at ha; subst ha; rfl
  cases h2 with
  | idle e1 e2 h2 => rw [← hh, e1] at hfin; exact absurd hfin (lt_irrefl _)
  | dep x x' hlt h2 => rw [hh] at hlt; exact absurd hlt (not_lt.mpr hle)
  | arr x rest hge hlt _ hres h2 =>
    have := h2.head; rw [ha] at this; simp at this; subst this
    have := (hres _ _ hkind).1; simp at this
  | block x rest _ _ _ hres hhead h2 =>
    rw [ha] at hhead; simp at hhead; subst hhead
    have := (hres _ _ hkind).1; simp at this
  | deposit x had' hge hlt hka h2 e1 e2 e3 e4 e5 =>
    have := h2.head; rw [ha] at this; simp at this; subst this
    exact ⟨e1, h2.perm, h2.queue, h2.departures, h2.numTotal, e3, e4, rfl⟩
  | full x had' hge hlt hka hx h2 e1 =>
    have := h2.head; rw [ha] at this; simp at this; subst this
    rw [hkind] at hka; simp at hka

/-- The number of resources an agent carries. -/
def carry : AgentKind → Int
  | .resource true _ => 1
  | _ => 0

/-- The number of resources carried by the agents on their way to a queue, waiting there and in service. -/
def carried (s : QS T) : Int :=
  ((agents s.arrivals).map fun a => carry a.kind).sum + (s.queue.map fun a => carry a.kind).sum +
    ((agents s.departures).map fun a => carry a.kind).sum

/-- The number of resources carried by the agent that departs. -/
def carriedOut : Option (Agent T) → Int
  | some a => carry a.kind
  | none => 0

omit [LinearOrder T] [OrderTop T] [Zero T] in
theorem carry_perm {l l' : List (Agent T)} (h : l.Perm l') :
    (l.map fun a => carry a.kind).sum = (l'.map fun a => carry a.kind).sum := by
  induction h with
  | nil => rfl
  | cons _ _ ih => simp [ih]
  | swap => simp only [List.map_cons, List.sum_cons]; omega
  | trans _ _ i1 i2 => exact i1.trans i2

theorem act_ledger {c : QCfg T} {k k' : AgentKind} {n n' : Cap} {om om' : Nat} (h : Act c k n om k' n' om') {m : Int}
    (hn : n = .fin m) : ∃ m', n' = .fin m' ∧ m' + carry k' ≤ m + carry k := by
  subst hn
  cases h with
  | other => exact ⟨m, rfl, le_rfl⟩
  | drop => exact ⟨m, rfl, by simp [carry]⟩
  | take => exact ⟨m + -1, rfl, by simp [carry]⟩
  | stuck => exact ⟨m, rfl, le_rfl⟩

/-- The books of one event. -/
theorem rev_ledger {c : QCfg T} (hf : carry c.factory = 0) {s s1 : QS T} {r : Option (Agent T)} {n : Int}
    (hn : s.numServers = .fin n) (h2 : REv c s s1 r) :
    ∃ n', s1.numServers = .fin n' ∧ n' + carried s1 + carriedOut r ≤ n + carried s := by
  unfold carried
  have hext : ∀ (a : Agent T) (rest : List (Slot T)), (agents s.arrivals).Perm (a :: agents rest) →
      ExtSpec c s s1 a.time rest →
      ((agents s1.arrivals).map fun a => carry a.kind).sum + carry a.kind =
      ((agents s.arrivals).map fun a => carry a.kind).sum := by
    rintro a rest hp ⟨ext, x1, x2, -⟩
    have h1 := carry_perm hp
    have h2 := carry_perm x2
    have h3 : (ext.map fun a => carry a.kind).sum = 0 := by
      generalize s1.nextCt = ν, s1.active = act, s1.arrCalls = n at x1
      cases x1 <;> simp [hf]
    simp only [List.map_cons, List.sum_cons, List.map_append, List.sum_append] at h1 h2
    omega
  cases h2 with
  | idle _ _ h2 => exact ⟨n, by rw [h2, hn], by rw [h2]; simp [carriedOut]⟩
  | dep a a' _ h2 =>
    obtain ⟨deps, g1, g2, ⟨x, rest, k, m, om, hq, -, a1, a2, e1, e2, -⟩ | ⟨hq, a1, e1, e2, -⟩⟩ := h2.served
    · obtain ⟨m1, rfl, l1⟩ := act_ledger a1 hn
      obtain ⟨m2, e3, l2⟩ := act_ledger a2 rfl
      refine ⟨m2, e3, ?_⟩
      have p1 := carry_perm g1
      have p2 := carry_perm e2
      simp only [List.map_cons, List.sum_cons] at p1 p2
      rw [h2.arrivals, e1, hq]
      simp only [List.map_cons, List.sum_cons, carriedOut]
      omega
    · obtain ⟨m1, e3, l1⟩ := act_ledger a1 hn
      refine ⟨m1, e3, ?_⟩
      have p1 := carry_perm g1
      simp only [List.map_cons, List.sum_cons] at p1
      rw [h2.arrivals, e1, e2]
      simp only [carriedOut]
      omega
  | arr a rest _ _ _ _ h2 =>
    have hx := hext a rest h2.perm h2.ext
    obtain ⟨k, m, om, a1, ⟨k', -, e1, a2, e2, -⟩ | ⟨-, e1, e3, -, e2, -⟩⟩ := h2.served
    · obtain ⟨m1, rfl, l1⟩ := act_ledger a1 hn
      obtain ⟨m2, e3, l2⟩ := act_ledger a2 rfl
      refine ⟨m2, e3, ?_⟩
      have p2 := carry_perm e2
      simp only [List.map_cons, List.sum_cons] at p2
      rw [e1]
      simp only [carriedOut]
      omega
    · obtain ⟨m1, rfl, l1⟩ := act_ledger a1 hn
      refine ⟨m1, e3, ?_⟩
      rw [e1, e2]
      simp only [List.map_append, List.sum_append, List.map_cons, List.map_nil, List.sum_cons, List.sum_nil, carriedOut]
      omega
  | block a rest _ _ _ hres _ h2 =>
    have hx := hext a rest h2.perm h2.ext
    refine ⟨n, by rw [h2.numServers, hn], ?_⟩
    rw [h2.queue, h2.departures]
    have : 0 ≤ carry a.kind := by unfold carry; split <;> simp
    simp only [carriedOut]
    omega
  | deposit a had _ _ hka h2 e1 =>
    refine ⟨n + 1, by rw [e1, hn]; rfl, ?_⟩
    have p1 := carry_perm h2.perm
    simp only [List.map_cons, List.sum_cons, hka] at p1
    have p2 : carry (.resource true had) = 1 := rfl
    rw [h2.queue, h2.departures, p1, p2]
    simp only [carriedOut]
    omega
  | full a had _ _ hka _ h2 e1 =>
    refine ⟨n, by rw [e1, hn], ?_⟩
    have p1 := carry_perm h2.perm
    simp only [List.map_cons, List.sum_cons, hka] at p1
    have p2 : carry (.resource false had) = 0 := rfl
    rw [h2.queue, h2.departures, p1, p2]
    simp only [carriedOut]
    omega

/-- C68, weaker than conservation: an event never creates resources. Servers plus resources carried by agents (in the
queue and the one that departs) do not grow. MISSING from the full property: equality, which is false
(`C68_visit_takes_two`). -/
theorem C68_never_created_partial {c : QCfg T} (hk : c.kind = .resource) (hf : carry c.factory = 0) {b : Bool}
    {s s' : QS T} {r : Option (Agent T)} (h : Reach c b anyOp s) {n : Int} (hn : s.numServers = .fin n)
    (hr : nextEvent c s = .ok (s', r)) :
    ∃ n', s'.numServers = .fin n' ∧ n' + carried s' + carriedOut r ≤ n + carried s := by
  obtain ⟨s1, r1, h1, h2⟩ := nextEvent_res c s hk (h.baseR hk).okA (h.baseR hk).okD
  rw [h1] at hr
  simp only [Except.ok.injEq, Prod.mk.injEq] at hr
  obtain ⟨rfl, rfl⟩ := hr
  exact rev_ledger hf hn h2

/-! ### Counterexamples -/

/-- A ResourceQueue with `m` servers: an arrival every 10 time units, service takes 1. -/
def resDemo (m : Int) : QCfg ℕ∞ :=
  { demo with kind := .resource, servers := .fin m, maxServers := .fin (2 * m), factory := .resource false false
              arrivalF := fun _ t => t + 10, serviceF := fun _ t => t + 1, buffer := .fin 0 }

/-- F6: the visit of a single ResourceAgent at a queue with 5 servers leaves 3 servers, but the agent leaves with one
resource only. -/
theorem C68_visit_takes_two :
    let s := resOps (resDemo 5) true [.setActive, .next]
    Reach (resDemo 5) true anyOp s ∧ s.numServers = .fin 4 ∧
    (agents s.departures).map (·.kind) = [.resource false true] ∧
    ∃ s' a, nextEvent (resDemo 5) s = .ok (s', some a) ∧ s'.numServers = .fin 3 ∧ s'.numDepartures = 1 ∧
      a.kind = .resource true false :=
  ⟨reachOps _ _ _ (by decide +kernel), by decide +kernel, by decide +kernel, _, _, rfl, by decide +kernel,
    by decide +kernel, by decide +kernel⟩

/-- F23: a ResourceAgent that takes the last server on arrival waits for ever: nobody is in service, and once no more
arrivals are due no event can happen. -/
theorem C68_takes_its_own_server :
    let s := resOps (resDemo 1) true [.setActive, .setInactive, .next]
    Reach (resDemo 1) true anyOp s ∧ s.numServers = .fin 0 ∧ s.queue.map (·.kind) = [.resource true false] ∧
    agents s.departures = [] ∧ agents s.arrivals = [] ∧ s.time = ⊤ ∧ nextEvent (resDemo 1) s = .ok (s, none) :=
  ⟨reachOps _ _ _ (by decide +kernel), by decide +kernel, by decide +kernel, by decide +kernel, by decide +kernel,
    by decide +kernel, rfl⟩

/-- F23: after a resource has been deposited the agent still waits, next to an idle server; the next agent (of class
Agent) is served at once: a ResourceQueue is neither work-conserving (C07) nor first come, first served (C09). -/
theorem C75_waits_at_idle_server :
    let s := resOps (resDemo 1) true [.setActive, .setInactive, .next,
      .handover ⟨(3, 0), 20, 0, .resource true false⟩, .next, .handover ⟨(3, 1), 21, 0, .resource true false⟩, .next]
    let s' := resOps (resDemo 1) true [.setActive, .setInactive, .next,
      .handover ⟨(3, 0), 20, 0, .resource true false⟩, .next, .handover ⟨(3, 1), 21, 0, .resource true false⟩, .next,
      .handover ⟨(4, 0), 30, 0, .plain⟩, .next]
    Reach (resDemo 1) true anyOp s ∧ s.numServers = .fin 2 ∧ s.queue.map (·.id) = [(7, 0)] ∧
    agents s.departures = [] ∧ s.time = ⊤ ∧ Reach (resDemo 1) true anyOp s' ∧ s'.queue.map (·.id) = [(7, 0)] ∧
    (agents s'.departures).map (·.id) = [(4, 0)] :=
  ⟨reachOps _ _ _ (by decide +kernel), by decide +kernel, by decide +kernel, by decide +kernel, by decide +kernel,
    reachOps _ _ _ (by decide +kernel), by decide +kernel, by decide +kernel⟩

/-! ## C102: the outside stream of a ResourceQueue -/

/-- The next arrival at a ResourceQueue goes no further than its door: it is a ResourceAgent that carries a resource,
or one without a resource that finds no idle server. -/
def StopsAtDoor (s : QS T) (a : Agent T) : Prop :=
  ∃ has had, a.kind = .resource has had ∧ (has = true ∨ s.numServers.lt s.numSystem = false)

/-- C102: an arrival at a ResourceQueue that goes no further than the door is taken off the scheduled arrivals and no
further outside arrival is scheduled, whether the queue is active or not. (At a LossQueue one is, see C24.) -/
theorem C102_door_ends_stream {c : QCfg T} (hk : c.kind = .resource) {b : Bool} {s s' : QS T} {r : Option (Agent T)}
    (h : Reach c b anyOp s) {a : Agent T} (ha : s.arrivals.head? = some (.agent a))
    (hle : a.time ≤ headTime s.departures) (hfin : a.time < ⊤) (hd : StopsAtDoor s a)
    (hr : nextEvent c s = .ok (s', r)) :
    (agents s.arrivals).Perm (a :: agents s'.arrivals) ∧ s'.oArrivals = s.oArrivals ∧ s'.active = s.active ∧
    s'.nextCt = s.nextCt ∧ s'.numSystem = s.numSystem ∧ r = none := by
  obtain ⟨has, had, hkind, hd⟩ := hd
  obtain ⟨s1, r1, h1, h2⟩ := nextEvent_res c s hk (h.baseR hk).okA (h.baseR hk).okD
  rw [h1] at hr
  simp only [Except.ok.injEq, Prod.mk.injEq] at hr
  obtain ⟨rfl, rfl⟩ := hr
  have hh : headTime s.arrivals = a.time := by
    cases hd : s.arrivals with
    | nil => rw [hd] at ha; simp at ha
    | cons x l => rw [hd] at ha; simp at ha; subst ha; rfl
  have no : ¬ (has = false ∧ s.numServers.lt s.numSystem = true) := by
    rintro ⟨q1, q2⟩
    rcases hd with hd | hd
    · rw [q1] at hd; simp at hd
    · rw [q2] at hd; simp at hd
  cases h2 with
  | idle e1 e2 h2 => rw [← hh, e1] at hfin; exact absurd hfin (lt_irrefl _)
  | dep x x' hlt h2 => rw [hh] at hlt; exact absurd hlt (not_lt.mpr hle)
  | arr x rest hge hlt _ hres h2 =>
    have := h2.head; rw [ha] at this; simp at this; subst this
    exact absurd (hres _ _ hkind) no
  | block x rest _ _ _ hres hhead h2 =>
    rw [ha] at hhead; simp at hhead; subst hhead
    exact absurd (hres _ _ hkind) no
  | deposit x had' hge hlt hka h2 e1 e2 e3 e4 e5 =>
    have := h2.head; rw [ha] at this; simp at this; subst this
    exact ⟨h2.perm, h2.oArrivals, h2.active, h2.nextCt, h2.numSystem, rfl⟩
  | full x had' hge hlt hka hx h2 e1 =>
    have := h2.head; rw [ha] at this; simp at this; subst this
    exact ⟨h2.perm, h2.oArrivals, h2.active, h2.nextCt, h2.numSystem, rfl⟩

/-- C102: any other arrival, due at time `t`, keeps the stream: if the queue is active and the outside arrival drawn last is due
(`nextCt ≤ t`), the next one is drawn from `arrival_f` at `t`, and it is scheduled if it lies before `deactive_t`;
otherwise the queue becomes inactive. -/
theorem C102_others_keep_stream {c : QCfg T} (hk : c.kind = .resource) {b : Bool} {s s' : QS T} {r : Option (Agent T)}
    (h : Reach c b anyOp s) {a : Agent T} (ha : s.arrivals.head? = some (.agent a))
    (hle : a.time ≤ headTime s.departures) (hfin : a.time < ⊤) (hd : ¬ StopsAtDoor s a)
    (hact : s.active = true) (hdue : s.nextCt ≤ a.time) (hr : nextEvent c s = .ok (s', r)) :
    if c.arrivalF s.arrCalls a.time < c.deactiveT then
      (∃ rest, (agents s.arrivals).Perm (a :: rest) ∧ (agents s'.arrivals).Perm
        (⟨(c.edge.idx, s.oArrivals), c.arrivalF s.arrCalls a.time, 0, c.factory⟩ :: rest)) ∧
      s'.oArrivals = s.oArrivals + 1
    else s'.active = false ∧ (agents s.arrivals).Perm (a :: agents s'.arrivals) ∧ s'.oArrivals = s.oArrivals := by
  obtain ⟨s1, r1, h1, h2⟩ := nextEvent_res c s hk (h.baseR hk).okA (h.baseR hk).okD
  rw [h1] at hr
  simp only [Except.ok.injEq, Prod.mk.injEq] at hr
  obtain ⟨rfl, rfl⟩ := hr
  have hh : headTime s.arrivals = a.time := by
    cases hd : s.arrivals with
    | nil => rw [hd] at ha; simp at ha
    | cons x l => rw [hd] at ha; simp at ha; subst ha; rfl
  have key : ∀ rest : List (Slot T), (agents s.arrivals).Perm (a :: agents rest) → ExtSpec c s s1 a.time rest →
      if c.arrivalF s.arrCalls a.time < c.deactiveT then
        (∃ rest, (agents s.arrivals).Perm (a :: rest) ∧ (agents s1.arrivals).Perm
          (⟨(c.edge.idx, s.oArrivals), c.arrivalF s.arrCalls a.time, 0, c.factory⟩ :: rest)) ∧
        s1.oArrivals = s.oArrivals + 1
      else s1.active = false ∧ (agents s.arrivals).Perm (a :: agents s1.arrivals) ∧ s1.oArrivals = s.oArrivals := by
    rintro rest hp ⟨ext, x1, x2, x3, -⟩
    generalize hact' : s1.active = act at x1 ⊢
    generalize s1.nextCt = ν, s1.arrCalls = n at x1
    cases x1 with
    | inactive hx => rw [hact] at hx; simp at hx
    | early _ hx => exact absurd hdue (not_le.mpr hx)
    | off _ _ hx =>
      rw [if_neg (not_lt.mpr hx)]
      refine ⟨rfl, hp.trans (List.Perm.cons _ (by simpa using x2.symm)), by simpa using x3⟩
    | new _ _ hx =>
      rw [if_pos hx]
      exact ⟨⟨agents rest, hp, x2⟩, x3⟩
  cases h2 with
  | idle e1 e2 h2 => rw [← hh, e1] at hfin; exact absurd hfin (lt_irrefl _)
  | dep x x' hlt h2 => rw [hh] at hlt; exact absurd hlt (not_lt.mpr hle)
  | arr x rest hge hlt _ hres h2 =>
    have := h2.head; rw [ha] at this; simp at this; subst this
    exact key rest h2.perm h2.ext
  | block x rest _ _ _ hres hhead h2 =>
    rw [ha] at hhead; simp at hhead; subst hhead
    exact key rest h2.perm h2.ext
  | deposit x had' hge hlt hka h2 e1 e2 e3 e4 e5 =>
    have := h2.head; rw [ha] at this; simp at this; subst this
    exact absurd ⟨true, had', hka, .inl rfl⟩ hd
  | full x had' hge hlt hka hx h2 e1 =>
    have := h2.head; rw [ha] at this; simp at this; subst this
    exact absurd ⟨false, had', hka, .inr hx⟩ hd

/-- C102: once nothing is scheduled at an active ResourceQueue its outside stream stays dead, although the queue
remains active, through any number of events and calls of `set_active` (until an agent comes from elsewhere, or the
queue is made inactive and active again). -/
theorem C102_stays_dead {c : QCfg T} (hk : c.kind = .resource) {b : Bool} {s s' : QS T} (h : Reach c b anyOp s)
    (hact : s.active = true) (harr : agents s.arrivals = []) {ops : List (QOp T)}
    (hops : ∀ op ∈ ops, op = .next ∨ op = .setActive) (hr : runOps c s ops = .ok s') :
    s'.active = true ∧ agents s'.arrivals = [] ∧ s'.oArrivals = s.oArrivals := by
  induction ops generalizing s with
  | nil => simp only [runOps, Except.ok.injEq] at hr; subst hr; exact ⟨hact, harr, rfl⟩
  | cons op ops ih =>
    simp only [runOps] at hr
    split at hr
    · simp at hr
    · rename_i s1 h1
      have key : s1.active = true ∧ agents s1.arrivals = [] ∧ s1.oArrivals = s.oArrivals := by
        rcases hops op (by simp) with rfl | rfl
        · simp only [QOp.run] at h1
          have htop : headTime s.arrivals = ⊤ := (h.baseR hk).okA.top_of_nil harr
          obtain ⟨s2, r1, e1, h2⟩ := nextEvent_res c s hk (h.baseR hk).okA (h.baseR hk).okD
          rw [e1] at h1
          simp only [Except.ok.injEq] at h1
          subst h1
          cases h2 with
          | idle _ _ h2 => rw [h2]; exact ⟨hact, harr, rfl⟩
          | dep x x' _ h2 => rw [h2.active, h2.arrivals, h2.oArrivals]; exact ⟨hact, harr, rfl⟩
          | arr x rest _ hlt => rw [htop] at hlt; exact absurd hlt (lt_irrefl _)
          | block x rest _ hlt => rw [htop] at hlt; exact absurd hlt (lt_irrefl _)
          | deposit x had _ hlt => rw [htop] at hlt; exact absurd hlt (lt_irrefl _)
          | full x had _ hlt => rw [htop] at hlt; exact absurd hlt (lt_irrefl _)
        · simp only [QOp.run, setActive, hact] at h1
          simp only [if_true, Except.ok.injEq] at h1
          subst h1; exact ⟨hact, harr, rfl⟩
      obtain ⟨k1, k2, k3⟩ := key
      obtain ⟨q1, q2, q3⟩ := ih (h.step op trivial h1) k1 k2 (fun op hop => hops op (by simp [hop])) hr
      exact ⟨q1, q2, q3.trans k3⟩

/-- With one server: the first agent takes it and waits, the second finds no idle server and stops at the door; the
queue is active but dead. Handing over an agent of class Agent revives the stream. -/
example : let s := resOps (resDemo 1) true [.setActive, .next]
    let s1 := resOps (resDemo 1) true [.setActive, .next, .next]
    let s2 := resOps (resDemo 1) true [.setActive, .next, .next, .setServers (.int 3), .handover ⟨(4, 0), 30, 0, .plain⟩, .next]
    Reach (resDemo 1) true anyOp s ∧ (s.arrivals.head?.map Slot.time) = some 20 ∧ s.numServers.lt s.numSystem = false ∧
    s1.active = true ∧ agents s1.arrivals = [] ∧ s1.oArrivals = 2 ∧
    (agents s2.arrivals).map (fun a => (a.id, a.time)) = [((7, 2), 40)] :=
  ⟨reachOps _ _ _ (by decide +kernel), by decide +kernel, by decide +kernel, by decide +kernel, by decide +kernel,
    by decide +kernel, by decide +kernel⟩

/-! ### The hypotheses are met -/

/-- `max_servers` is 4: a deposit of a fifth server counts. -/
example : let s := resOps (resDemo 2) true [.setServers (.int 4), .handover ⟨(3, 0), 20, 0, .resource true false⟩]
    Reach (resDemo 2) true anyOp s ∧ s.numServers = .fin 4 ∧ s.overMax = 0 ∧
    ∃ s' r, nextEvent (resDemo 2) s = .ok (s', r) ∧ s'.numServers = .fin 5 ∧ s'.overMax = 1 :=
  ⟨reachOps _ _ _ (by decide +kernel), by decide +kernel, by decide +kernel, _, _, rfl, by decide +kernel,
    by decide +kernel⟩

/-- On the way down from 8 to 6 the values 7 and 6 exceed 5. -/
example : above (.fin 5) 8 6 = 2 ∧ above (.fin 6) 8 6 = 1 ∧ above .inf 8 6 = 0 := by decide

/-- Taking one of 7 servers when `max_servers` is 4 counts, too. -/
example : let s := resOps (resDemo 2) true [.setServers (.int 7), .setActive]
    s.overMax = 1 ∧ ∃ s' r, nextEvent (resDemo 2) s = .ok (s', r) ∧ s'.numServers = .fin 6 ∧ s'.overMax = 2 :=
  ⟨by decide +kernel, _, _, rfl, by decide +kernel, by decide +kernel⟩

/-- Infinitely many servers. -/
example : let s := resOps (resDemo 2) true [.setServers .infty, .setActive]
    Reach (resDemo 2) true anyOp s ∧ s.numServers = .inf ∧ settingsInf s = 1 ∧
    ∃ s' r, nextEvent (resDemo 2) s = .ok (s', r) ∧ s'.overMax = 2 :=
  ⟨reachOps _ _ _ (by decide +kernel), by decide +kernel, by decide +kernel, _, _, rfl, by decide +kernel⟩

end Verif.ResourceSpec
