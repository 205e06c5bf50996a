import Verif.QueueInv3
import Verif.Props.Queue1

/-! # Properties C14-C20 of QueueServer and LossQueue -/

set_option linter.unusedSectionVars false

namespace Verif.QueueSpec

variable {T : Type*} [LinearOrder T] [OrderTop T] [Zero T]

/-! ## C14 -/

/-- C14, if `active_cap >= 1` and `set_active` is not called once the cap is reached: a queue never
creates more than `active_cap` agents. MISSING from the full property: `active_cap = 0` and re-activation
after the cap was reached, for which it is false (`C14_cap_zero`, `C14_reactivation`). -/
theorem C14_active_cap_partial {c : QCfg T} (hk : Simple c) {b : Bool} {s : QS T} {cap : Int}
    (hc : c.activeCap = .fin cap) (h1 : 1 ≤ cap)
    (h : Reach c b (fun s op => op = .setActive → s.active = false → s.oArrivals < cap) s) :
    (s.oArrivals : Int) ≤ cap := by
  have := h.capInv hk (by rw [hc]; simp [Cap.le, h1]) (fun s op hx he ha => by
    rw [hc]; simp only [Cap.lt, decide_eq_true_eq]; exact hx he ha)
  have := this.le
  rw [hc] at this
  simpa [Cap.le] using this

/-- Three agents, then the stream stops. -/
example : (resOps { demo with activeCap := .fin 3 } true demoOps).oArrivals = 3 := by decide +kernel

/-- F4: `active_cap = 0` admits one arrival. -/
theorem C14_cap_zero :
    let c : QCfg ℕ∞ := { demo with activeCap := .fin 0 }
    let s := resOps c true [.setActive, .next]
    Reach c true anyOp s ∧ s.oArrivals = 1 ∧ s.numArrivals = 1 :=
  ⟨reachOps _ _ _ (by decide +kernel), by decide +kernel, by decide +kernel⟩

/-- F4: activating again after the cap was reached creates further agents. -/
theorem C14_reactivation :
    let c : QCfg ℕ∞ := { demo with activeCap := .fin 1 }
    let s := resOps c true [.setActive, .next, .setActive]
    Reach c true anyOp s ∧ s.oArrivals = 2 :=
  ⟨reachOps _ _ _ (by decide +kernel), by decide +kernel⟩

/-! ## C15, C16 -/

/-- C15: every agent a queue creates arrives strictly before `deactive_t`. -/
theorem C15_deactive_t {c : QCfg T} (hk : Simple c) {b : Bool} {s : QS T} (h : Reach c b anyOp s) :
    ∀ p ∈ s.created, p.2 < c.deactiveT :=
  (h.cinv hk).before

example : (resOps { demo with deactiveT := 3 } true demoOps).created = [((7, 0), 1), ((7, 1), 2)] ∧
    (resOps { demo with deactiveT := 3 } true demoOps).active = false := by decide +kernel

/-- C16: the agents created since the last `clear` are `(edge index, 0), (edge index, 1), ...`. -/
theorem C16_ids {c : QCfg T} (hk : Simple c) {b : Bool} {s : QS T} (h : Reach c b anyOp s) :
    s.created.map Prod.fst = (List.range s.oArrivals).map (fun i => (c.edge.idx, i)) ∧
    (s.created.map Prod.fst).Nodup := by
  have hi := (h.cinv hk).ids
  refine ⟨hi, ?_⟩
  rw [hi]
  exact List.nodup_range.map (fun i j hij => (Prod.mk.inj hij).2)

example : (resOps demo true demoOps).created.length = 6 := by decide +kernel

/-! ## C17 -/

/-- The number of events a queue has processed. -/
def events (s : QS T) : Nat := s.numArrivals + s.numDepartures + s.numBlocked

/-- One `next_event` on a queue of the right shape. -/
theorem next_events {c : QCfg T} (hk : Simple c) {s : QS T} (hb : QBase s) :
    ∃ s' r, nextEvent c s = .ok (s', r) ∧ QBase s' ∧
      (s.time < ⊤ → events s' = events s + 1) ∧ (s.time = ⊤ → s' = s) := by
  obtain ⟨s1, r1, h1, h2⟩ := nextEvent_spec c s hk hb.okA hb.okD
  refine ⟨s1, r1, h1, hb.step hk (.ev s1 r1 h1 h2), ?_, ?_⟩
  · intro hlt
    rw [hb.time] at hlt
    cases h2 with
    | idle e1 e2 _ => rw [nextTime, e1, e2, min_self] at hlt; exact absurd hlt (lt_irrefl _)
    | dep a e1 e2 _ => simp only [events, e2.numArrivals, e2.numDepartures, e2.numBlocked]; omega
    | arr a rest e1 _ _ e2 _ => simp only [events, e2.numArrivals, e2.numDepartures, e2.numBlocked]; omega
    | block a rest e1 _ _ _ e2 _ =>
      simp only [events, e2.numArrivals, e2.numDepartures, e2.numBlocked]; omega
  · intro htop
    rw [hb.time] at htop
    cases h2 with
    | idle e1 e2 e3 => exact e3
    | dep a e1 e2 _ =>
      rw [nextTime, min_eq_right e1.le] at htop; rw [htop] at e1; exact absurd e1 (not_lt.mpr le_top)
    | arr a rest e1 e3 _ e2 _ => rw [nextTime, min_eq_left e1] at htop; exact absurd htop e3.ne
    | block a rest e1 e3 _ _ e2 _ => rw [nextTime, min_eq_left e1] at htop; exact absurd htop e3.ne

theorem simulateN_idle {c : QCfg T} (hk : Simple c) (k : Nat) {s : QS T} (hb : QBase s)
    (ht : s.time = ⊤) : simulateN c k s = .ok s := by
  induction k with
  | zero => rfl
  | succ k ih =>
    obtain ⟨s', r, h1, h2, h3, h4⟩ := next_events hk hb
    rw [h4 ht] at h1
    simp only [simulateN, h1, ih]

/-- C17: `simulate(n=k)` never raises and performs exactly `k` events; or fewer, and then nothing is
scheduled any more. -/
theorem C17_simulate_n {c : QCfg T} (hk : Simple c) {b : Bool} (k : Nat) {s : QS T}
    (h : Reach c b anyOp s) :
    ∃ s', simulateN c k s = .ok s' ∧
      (events s' = events s + k ∨ (events s' < events s + k ∧ s'.time = ⊤)) ∧
      (s.time = ⊤ → s' = s) := by
  have hb := h.base hk
  clear h
  induction k generalizing s with
  | zero => exact ⟨s, rfl, .inl rfl, fun _ => rfl⟩
  | succ k ih =>
    rcases eq_or_lt_of_le (le_top : s.time ≤ ⊤) with ht | ht
    · exact ⟨s, simulateN_idle hk _ hb ht, .inr ⟨by omega, ht⟩, fun _ => rfl⟩
    · obtain ⟨s1, r, h1, h2, h3, h4⟩ := next_events hk hb
      obtain ⟨s', g1, g2, g3⟩ := ih h2
      refine ⟨s', by simp only [simulateN, h1, g1], ?_, fun h => absurd h ht.ne⟩
      have := h3 ht
      rcases g2 with g2 | ⟨g2, g4⟩
      · left; omega
      · exact .inr ⟨by omega, g4⟩

example : ∃ s', simulateN demo 10 (resOps demo true [.setActive]) = .ok s' ∧ events s' = 10 :=
  ⟨_, rfl, by decide +kernel⟩

/-! ## C18 -/

/-- `s'` is reached from `s` by `k` events. -/
inductive Steps (c : QCfg T) : Nat → QS T → QS T → Prop
  | zero (s : QS T) : Steps c 0 s s
  | succ {k : Nat} {s s' s'' : QS T} {r : Option (Agent T)} : Steps c k s s' →
      nextEvent c s' = .ok (s'', r) → Steps c (k + 1) s s''

theorem Steps.cons {c : QCfg T} {k : Nat} {s s' s'' : QS T} {r : Option (Agent T)}
    (h1 : nextEvent c s = .ok (s', r)) (h : Steps c k s' s'') : Steps c (k + 1) s s'' := by
  generalize hs : s' = s1 at h
  induction h with
  | zero => subst hs; exact .succ (.zero s) h1
  | succ _ h2 ih => exact .succ (ih hs) h2

/-- A while loop that ends with `s'` went through `k` events, before each of which the condition held
and something was scheduled; at `s'` it does not hold any more or nothing is scheduled. -/
theorem simulateWhile_spec {c : QCfg T} (hk : Simple c) (cond : QS T → Bool) (fuel : Nat) {s : QS T}
    {res : Except Err (QS T)} (hb : QBase s) (h : simulateWhile c cond fuel s = some res) :
    ∃ s' k, res = .ok s' ∧ Steps c k s s' ∧ QBase s' ∧ (cond s' = false ∨ s'.time = ⊤) ∧
      (k = 0 ∨ ∃ s1 r k', k = k' + 1 ∧ Steps c k' s s1 ∧ QBase s1 ∧ cond s1 = true ∧ s1.time < ⊤ ∧
        nextEvent c s1 = .ok (s', r)) := by
  have stop : ∀ s : QS T, ¬ (cond s = true ∧ s.time < ⊤) → cond s = false ∨ s.time = ⊤ := by
    intro s hn
    cases hc : cond s with
    | false => exact .inl rfl
    | true => right; by_contra ht; exact hn ⟨hc, lt_top_iff_ne_top.mpr ht⟩
  induction fuel generalizing s with
  | zero =>
    simp only [simulateWhile] at h
    split at h
    · simp at h
    · rename_i hn
      simp only [Option.some.injEq] at h
      exact ⟨s, 0, h.symm, .zero s, hb, stop s hn, .inl rfl⟩
  | succ fuel ih =>
    simp only [simulateWhile] at h
    split at h
    · rename_i hc
      obtain ⟨s1, r, h1, h2, h3, h4⟩ := next_events hk hb
      rw [h1] at h
      simp only at h
      obtain ⟨s', k, g1, g2, g3, g4, g5⟩ := ih h2 h
      refine ⟨s', k + 1, g1, .cons h1 g2, g3, g4, .inr ?_⟩
      rcases g5 with rfl | ⟨s2, r2, k', e1, e2, e3, e4, e5, e6⟩
      · cases g2
        exact ⟨s, r, 0, rfl, .zero s, hb, hc.1, hc.2, h1⟩
      · exact ⟨s2, r2, k' + 1, by omega, .cons h1 e2, e3, e4, e5, e6⟩
    · rename_i hn
      simp only [Option.some.injEq] at h
      exact ⟨s, 0, h.symm, .zero s, hb, stop s hn, .inl rfl⟩

/-- Departures and creations grow by at most one per event. -/
theorem next_counts {c : QCfg T} (hk : Simple c) {s s' : QS T} {r : Option (Agent T)} (hb : QBase s)
    (h : nextEvent c s = .ok (s', r)) :
    s'.numDepartures ≤ s.numDepartures + 1 ∧ s'.oArrivals ≤ s.oArrivals + 1 := by
  obtain ⟨s1, r1, h1, h2⟩ := nextEvent_spec c s hk hb.okA hb.okD
  rw [h1] at h
  simp only [Except.ok.injEq, Prod.mk.injEq] at h
  obtain ⟨rfl, rfl⟩ := h
  have hext : ∀ {t rest}, ExtSpec c s s1 t rest → s1.oArrivals ≤ s.oArrivals + 1 := by
    rintro t rest ⟨ext, e1, -, e3, -⟩
    rw [e3]
    rcases e1.shape with rfl | ⟨b, rfl, -, -⟩ <;> simp
  cases h2 with
  | idle e1 e2 e3 => subst e3; omega
  | dep a e1 e2 _ => rw [e2.numDepartures, e2.oArrivals]; omega
  | arr a rest e1 e3 _ e2 _ => exact ⟨by rw [e2.numDepartures]; omega, hext e2.ext⟩
  | block a rest e1 e3 _ _ e2 _ => exact ⟨by rw [e2.numDepartures]; omega, hext e2.ext⟩

/-- C18 for `simulate(t=d)`: a run that ends (in whatever number of loop iterations) has not raised; it
stops because the clock has reached start + d, or nothing is scheduled; and before the last event the
clock had not reached start + d. -/
theorem C18_simulate_t [Add T] {c : QCfg T} (hk : Simple c) {b : Bool} {s : QS T} {d : T} {fuel : Nat}
    {res : Except Err (QS T)} (h : Reach c b anyOp s) (hr : simulateT c d fuel s = some res) :
    ∃ s' k, res = .ok s' ∧ Steps c k s s' ∧ (s.currentT + d ≤ s'.currentT ∨ s'.time = ⊤) ∧
      (k = 0 ∨ ∃ s1 r k', k = k' + 1 ∧ Steps c k' s s1 ∧ s1.currentT < s.currentT + d ∧
        s1.time < ⊤ ∧ nextEvent c s1 = .ok (s', r)) := by
  obtain ⟨s', k, h1, h2, h3, h4, h5⟩ := simulateWhile_spec hk _ fuel (h.base hk) hr
  refine ⟨s', k, h1, h2, ?_, ?_⟩
  · simpa using h4
  · rcases h5 with h5 | ⟨s1, r, k', e1, e2, e3, e4, e5, e6⟩
    · exact .inl h5
    · exact .inr ⟨s1, r, k', e1, e2, by simpa using e4, e5, e6⟩

/-- C18 for `simulate(nD=m)`: exactly `m` more departures, or fewer and nothing is scheduled. -/
theorem C18_simulate_nD {c : QCfg T} (hk : Simple c) {b : Bool} {s : QS T} {m : Nat} {fuel : Nat}
    {res : Except Err (QS T)} (h : Reach c b anyOp s) (hr : simulateD c m fuel s = some res) :
    ∃ s' k, res = .ok s' ∧ Steps c k s s' ∧
      (s'.numDepartures = s.numDepartures + m ∨
        (s'.numDepartures < s.numDepartures + m ∧ s'.time = ⊤)) := by
  obtain ⟨s', k, h1, h2, h3, h4, h5⟩ := simulateWhile_spec hk _ fuel (h.base hk) hr
  refine ⟨s', k, h1, h2, ?_⟩
  have hle : s'.numDepartures ≤ s.numDepartures + m := by
    rcases h5 with rfl | ⟨s1, r, k', e1, e2, e3, e4, e5, e6⟩
    · cases h2; omega
    · have := (next_counts hk e3 e6).1
      simp only [decide_eq_true_eq] at e4
      omega
  rcases h4 with h4 | h4
  · simp only [decide_eq_false_iff_not, not_lt] at h4
    left; omega
  · rcases Nat.lt_or_ge s'.numDepartures (s.numDepartures + m) with h6 | h6
    · exact .inr ⟨h6, h4⟩
    · left; omega

/-- C18 for `simulate(nA=m)`: exactly `m` more created agents, or fewer and nothing is scheduled. -/
theorem C18_simulate_nA {c : QCfg T} (hk : Simple c) {b : Bool} {s : QS T} {m : Nat} {fuel : Nat}
    {res : Except Err (QS T)} (h : Reach c b anyOp s) (hr : simulateA c m fuel s = some res) :
    ∃ s' k, res = .ok s' ∧ Steps c k s s' ∧
      (s'.oArrivals = s.oArrivals + m ∨ (s'.oArrivals < s.oArrivals + m ∧ s'.time = ⊤)) := by
  obtain ⟨s', k, h1, h2, h3, h4, h5⟩ := simulateWhile_spec hk _ fuel (h.base hk) hr
  refine ⟨s', k, h1, h2, ?_⟩
  have hle : s'.oArrivals ≤ s.oArrivals + m := by
    rcases h5 with rfl | ⟨s1, r, k', e1, e2, e3, e4, e5, e6⟩
    · cases h2; omega
    · have := (next_counts hk e3 e6).2
      simp only [decide_eq_true_eq] at e4
      omega
  rcases h4 with h4 | h4
  · simp only [decide_eq_false_iff_not, not_lt] at h4
    left; omega
  · rcases Nat.lt_or_ge s'.oArrivals (s.oArrivals + m) with h6 | h6
    · exact .inr ⟨h6, h4⟩
    · left; omega

example : (simulateD demo 2 20 (resOps demo true [.setActive])).isSome ∧
    (simulateT demo 5 20 (resOps demo true [.setActive])).isSome ∧
    (simulateA demo 4 20 (resOps demo true [.setActive])).isSome := by decide +kernel

/-! ## C19 -/

/-- C19: `delay_service(t)` changes only the departure time of the agent that was to depart next
(to `t`, or to a fresh service time), the queue's `time`, and the number of service times drawn. -/
theorem C19_delay_service {c : QCfg T} (hk : Simple c) {b : Bool} {s s' : QS T} {t : Option T}
    (h : Reach c b anyOp s) (hr : delayService c s t = .ok s') :
    ((inService s = [] ∧ s' = s) ∨
     ∃ a others, (inService s).Perm (a :: others) ∧ (∀ x ∈ inService s, a.time ≤ x.time) ∧
      (inService s').Perm ({ a with time := t.getD (c.serviceF s.svcCalls a.time) } :: others) ∧
      s' = { s with departures := s'.departures, time := s'.time, svcCalls := s'.svcCalls }) := by
  have hb := h.base hk
  obtain ⟨s1, h1, h2⟩ := delayService_spec c s t hk.ne_null hb.okD
    (delayService_fin c s s' t hk.ne_null hb.okD hr)
  rw [h1] at hr
  simp only [Except.ok.injEq] at hr
  subst hr
  cases h2 with
  | none h3 => exact .inl ⟨h3, rfl⟩
  | some a rest deps e1 e2 e3 e4 e5 e6 =>
    refine .inr ⟨a, agents rest, e4, ?_, e6, rfl⟩
    rw [e3]; exact hb.okD.le

/-- ... and it does not raise if the agents in service have finite departure times. -/
theorem C19_delay_service_ok {c : QCfg T} (hk : Simple c) {b : Bool} {s : QS T} (t : Option T)
    (h : Reach c b anyOp s) (hf : ∀ a ∈ inService s, a.time < ⊤) : ∃ s', delayService c s t = .ok s' := by
  have hb := h.base hk
  obtain ⟨s1, h1, -⟩ := delayService_spec c s t hk.ne_null hb.okD (fun hne hinf => by
    cases hl : s.departures with
    | nil => rw [hl] at hinf; simp at hinf
    | cons x l =>
      rw [hl] at hinf; simp at hinf; subst hinf
      obtain ⟨a, ha⟩ := List.exists_mem_of_ne_nil _ hne
      have h1 := hb.okD.le a ha
      rw [hl] at h1
      have h2 : (⊤ : T) ≤ a.time := h1
      exact absurd (hf a ha) (not_lt.mpr h2))
  exact ⟨s1, h1⟩

example : (inService (resOps demo true (demoOps ++ [.delay (some 50) 0]))).map (·.time) = [50] := by
  decide +kernel

/-! ## C20 -/

/-- How many agents `set_num_servers(n)` shall take from the line. -/
def started (old new : Cap) (waiting : Nat) : Int :=
  match new, old with
  | .fin n, .fin m => max 0 (min (n - m) waiting)
  | .inf, _ => waiting
  | .fin _, .inf => 0

/-- C20: invalid arguments raise and change nothing; otherwise `num_servers` becomes `n` and the first
`min(n - old, waiting)` (at least 0) agents in line start service, everything else is unchanged.
MISSING from the full property: `set_num_servers(infty)` on a queue that already has infinitely many
servers raises TypeError (`C20_infty_infty`). -/
theorem C20_set_num_servers_partial {c : QCfg T} (hk : Simple c) {b : Bool} {s : QS T}
    (h : Reach c b anyOp s) :
    (setNumServers c s .other = (s, some .typeError)) ∧
    (∀ n, n ≤ 0 → setNumServers c s (.int n) = (s, some .valueError)) ∧
    ∀ n new, (n = .infty ∧ new = .inf ∧ s.numServers ≠ .inf) ∨ (∃ m, n = .int m ∧ 0 < m ∧ new = .fin m) →
      ∃ s', ∃ k : Nat, setNumServers c s n = (s', none) ∧ (k : Int) = started s.numServers new s.queue.length ∧
        s'.numServers = new ∧ s'.queue = s.queue.drop k ∧
        s'.log = s.log ++ (s.queue.take k).map (fun a => (a.id, 1)) ∧
        ((inService s').map (·.id)).Perm ((s.queue.take k).map (·.id) ++ (inService s).map (·.id)) ∧
        s' = { s with
          numServers := s'.numServers, queue := s'.queue, departures := s'.departures
          time := s'.time, svcCalls := s'.svcCalls, log := s'.log, data := s'.data } := by
  have hb := h.base hk
  refine ⟨?_, ?_, ?_⟩
  · rcases hk with hk | hk <;> simp [setNumServers, hk]
  · intro n hn
    rcases hk with hk | hk <;> simp [setNumServers, hk, hn]
  · intro n new hn
    have hs := setNumServers_spec c s n hk hb.okD
    generalize hp : setNumServers c s n = p at hs
    obtain ⟨s', e⟩ := p
    cases hs with
    | typ h1 =>
      exfalso
      rcases hn with ⟨rfl, -, h2⟩ | ⟨m, rfl, -, -⟩
      · rcases h1 with h1 | ⟨-, h1⟩
        · simp at h1
        · exact h2 h1
      · rcases h1 with h1 | ⟨h1, -⟩ <;> simp at h1
    | val m h1 h2 =>
      exfalso
      rcases hn with ⟨rfl, -, -⟩ | ⟨m', rfl, h3, -⟩
      · simp at h1
      · simp at h1; omega
    | ok new' k deps e1 e2 e3 e4 e5 =>
      have hnew : new' = new := by
        rcases hn with ⟨rfl, rfl, -⟩ | ⟨m', rfl, h3, rfl⟩ <;>
          rcases e1 with ⟨m, g1, g2, g3⟩ | ⟨g1, g2⟩
        · simp at g1
        · exact g2
        · simp at g1; rw [g3, g1]
        · simp at g1
      subst hnew
      refine ⟨_, k, rfl, ?_, rfl, rfl, rfl, ?_, rfl⟩
      · unfold agentsToQueue at e2
        unfold started
        split at e2
        · rename_i he; simp only [Option.some.injEq] at e2; simp only [he]; omega
        · simp only [Option.some.injEq] at e2; simp [e2]
        · rename_i he; simp only [Option.some.injEq] at e2; simp [← e2, he]
        · simp at e2
      · have := e5.map (fun x : Agent T => x.id)
        simp only [List.map_append, startServ_ids] at this
        exact this

example : (setNumServers demo (resOps demo true demoOps) (.int 3)).1.queue.length = 1 ∧
    (setNumServers demo (resOps demo true demoOps) (.int 3)).2 = none := by decide +kernel

/-- F3: `set_num_servers(infty)` twice raises TypeError. -/
theorem C20_infty_infty :
    (setNumServers demo (resOps demo true [.setServers .infty]) .infty).2 = some .typeError := by
  decide +kernel

end Verif.QueueSpec
