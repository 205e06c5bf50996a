import Verif.Props.Queue4
import Verif.QueueFcfs
import Mathlib.Data.Rat.Defs
import Mathlib.Algebra.Order.Field.Rat
import Mathlib.Tactic.FieldSimp

/-! # Properties C82-C84: Little's law, the waiting times, comparison of queues -/

set_option linter.unusedSectionVars false

namespace Verif.QueueSpec

variable {T : Type*} [LinearOrder T] [OrderTop T] [Zero T]

/-! ## Witnesses -/

/-- The states passed through, the latest first, starting with those in `l`. -/
def passOps (c : QCfg T) : QS T → List (QS T) → List (QOp T) → List (QS T)
  | _, l, [] => l
  | s, l, op :: ops =>
    match op.run c s with
    | .error _ => l
    | .ok s' => passOps c s' (s :: l) ops

theorem Traj.ofOps {c : QCfg T} {b : Bool} {ok : QS T → QOp T → Prop} {s s' : QS T} {l : List (QS T)}
    (ops : List (QOp T)) (h : Traj c b ok s l) (hok : okOps c ok s ops)
    (hr : runOps c s ops = .ok s') : Traj c b ok s' (passOps c s l ops) := by
  induction ops generalizing s l with
  | nil => simp only [runOps, Except.ok.injEq] at hr; exact hr ▸ h
  | cons op ops ih =>
    simp only [runOps] at hr
    split at hr
    · simp at hr
    · rename_i s1 h1
      simp only [passOps, h1]
      exact ih (h.step op hok.1 h1) (hok.2 _ h1) hr

/-- Decide `okOps` by running. -/
def okRun (c : QCfg T) (ok : QS T → QOp T → Bool) : QS T → List (QOp T) → Bool
  | _, [] => true
  | s, op :: ops => ok s op && match op.run c s with
    | .error _ => true
    | .ok s' => okRun c ok s' ops

theorem okRun_okOps {c : QCfg T} {okb : QS T → QOp T → Bool} {ok : QS T → QOp T → Prop}
    (hb : ∀ s op, okb s op = true → ok s op) (s : QS T) (ops : List (QOp T))
    (h : okRun c okb s ops = true) : okOps c ok s ops := by
  induction ops generalizing s with
  | nil => trivial
  | cons op ops ih =>
    simp only [okRun, Bool.and_eq_true] at h
    refine ⟨hb s op h.1, fun s' hs' => ih s' ?_⟩
    have := h.2
    rw [hs'] at this
    exact this

/-- Three agents handed to `demo` (service takes three) for times 1, 2 and 9; they leave at 4, 7 and 12.
Two calls later there is nobody left. -/
def threeOps : List (QOp ℕ∞) :=
  [.handover ⟨(3, 0), 1, 0, .plain⟩, .handover ⟨(3, 1), 2, 0, .plain⟩, .next, .next,
   .handover ⟨(3, 2), 9, 0, .plain⟩, .next, .next, .next, .next, .next]

def lawOkB (c : QCfg ℕ∞) (s : QS ℕ∞) : QOp ℕ∞ → Bool
  | .next => true
  | .handover a => decide (s.currentT ≤ a.time) && decide (a.id ∉ presentIds s) &&
      decide (a.id.1 ≠ c.edge.idx)
  | _ => false

theorem lawOkB_ok (c : QCfg ℕ∞) (s : QS ℕ∞) (op : QOp ℕ∞) (h : lawOkB c s op = true) :
    LawOk c s op ∧ FcfsOk s op := by
  cases op <;> simp only [lawOkB, Bool.and_eq_true, decide_eq_true_eq, Bool.false_eq_true] at h
  · exact ⟨⟨trivial, by simp⟩, trivial, by simp, by simp, by simp⟩
  · exact ⟨⟨⟨h.1.1, h.1.2, fun e => absurd e h.2⟩, by simp⟩, h.1.1, by simp, by simp, by simp⟩

theorem three_traj : Traj demo true (fun s op => LawOk demo s op ∧ FcfsOk s op)
    (resOps demo true threeOps) (passOps demo (QS.init demo true) [] threeOps) :=
  Traj.ofOps threeOps .init (okRun_okOps (lawOkB_ok demo) _ _ (by decide +kernel)) (by decide +kernel)

theorem Traj.mono {c : QCfg T} {b : Bool} {ok ok' : QS T → QOp T → Prop} {s : QS T} {l : List (QS T)}
    (hok : ∀ s op, ok s op → ok' s op) (h : Traj c b ok s l) : Traj c b ok' s l := by
  induction h with
  | init => exact .init
  | step op _ h1 h2 ih => exact .step op ih (hok _ _ h1) h2

/-- Time as a rational number. -/
def ratTime (t : ℕ∞) : ℚ := (t.toNat : ℚ)

/-! ## C82: Little's law on every history -/

section
variable {M : Type*} [AddCommGroup M]

/-- C82: with collection on throughout, the integral over time of the number in the system is the total
time in the system of the departed, as recorded, plus the time the agents still here have been here. -/
theorem C82_little {c : QCfg T} (hk : Simple c) (hf : Forward c) {s : QS T} {l : List (QS T)}
    (h : Traj c true (LawOk c) s l) (f : T → M) :
    area f (fun s => s.numSystem.toNat) s l =
      ((allRows s.data).map fun r => if r.arr ≤ r.dep then f r.dep - f r.arr else 0).sum +
      ((s.queue.map (·.id) ++ (inService s).map (·.id)).map fun x =>
        f s.currentT - ((s.data.rows x).getLast?).elim 0 fun r => f r.arr).sum := by
  have key : ∀ {s : QS T} {l : List (QS T)}, Traj c true (LawOk c) s l →
      area f (fun s => s.numSystem.toNat) s l =
      area f (fun s => s.queue.length + (inService s).length) s l := by
    intro s l h
    induction h with
    | init => rfl
    | step op h1 _ _ ih =>
      have := (h1.reach.inv hk).numSystem
      simp only [area, ih]
      rw [this]
      congr 2
  rw [key h]
  exact (h.ledger hk hf).a

/-- C82, waiting: the integral of the number waiting is the total recorded waiting time plus the time those
waiting now have waited. -/
theorem C82_little_queue {c : QCfg T} (hk : Simple c) (hf : Forward c) {s : QS T} {l : List (QS T)}
    (h : Traj c true (LawOk c) s l) (f : T → M) :
    area f (fun s => numberQueued c s) s l =
      ((allRows s.data).map fun r => if r.arr ≤ r.start then f r.start - f r.arr else 0).sum +
      ((s.queue.map (·.id)).map fun x =>
        f s.currentT - ((s.data.rows x).getLast?).elim 0 fun r => f r.arr).sum := by
  have : (fun s : QS T => numberQueued c s) = fun s => s.queue.length := by
    funext s; simp [numberQueued, hk.ne_null]
  rw [this]
  exact (h.ledger hk hf).aw

/-- C82, service: the integral of the number of busy servers is the total recorded service time plus the
time those in service have been served. -/
theorem C82_little_servers {c : QCfg T} (hk : Simple c) (hf : Forward c) {s : QS T} {l : List (QS T)}
    (h : Traj c true (LawOk c) s l) (f : T → M) :
    area f (fun s => (inService s).length) s l =
      ((allRows s.data).map fun r => if r.start ≤ r.dep then f r.dep - f r.start else 0).sum +
      (((inService s).map (·.id)).map fun x =>
        f s.currentT - ((s.data.rows x).getLast?).elim 0 fun r => f r.start).sum :=
  (h.ledger hk hf).as

/-- C82, when everybody has left: the integral of the number in the system is the sum of the recorded times
in the system. -/
theorem C82_little_empty {c : QCfg T} (hk : Simple c) (hf : Forward c) {s : QS T} {l : List (QS T)}
    (h : Traj c true (LawOk c) s l) (he : s.numSystem = 0) (f : T → M) :
    area f (fun s => s.numSystem.toNat) s l =
      ((allRows s.data).map fun r => if r.arr ≤ r.dep then f r.dep - f r.arr else 0).sum := by
  have hi := (h.reach.inv hk).numSystem
  rw [he] at hi
  have h1 : s.queue = [] := List.length_eq_zero_iff.mp (by omega)
  have h2 : inService s = [] := List.length_eq_zero_iff.mp (by unfold inService; omega)
  rw [C82_little hk hf h f, h1, h2]
  simp

end

/-- C82, in the usual form `L = λ W`: when everybody has left, the time average of the number in the system
is the number of departures per unit of time, times the average recorded time in the system. -/
theorem C82_l_eq_lambda_w {c : QCfg T} (hk : Simple c) (hf : Forward c) {s : QS T} {l : List (QS T)}
    (h : Traj c true (LawOk c) s l) (he : s.numSystem = 0) (hd : 0 < s.numDepartures) (f : T → ℚ) :
    area f (fun s => s.numSystem.toNat) s l / f s.currentT =
      s.numDepartures / f s.currentT *
      (((allRows s.data).map fun r => if r.arr ≤ r.dep then f r.dep - f r.arr else 0).sum /
        s.numDepartures) := by
  rw [C82_little_empty hk hf h he f]
  have : (s.numDepartures : ℚ) ≠ 0 := by exact_mod_cast hd.ne'
  field_simp

/-- The three agents stay 3, 5 and 3 units: 11 in twelve units of time. -/
example : (resOps demo true threeOps).numSystem = 0 ∧ (resOps demo true threeOps).numDepartures = 3 ∧
    area ratTime (fun s => s.numSystem.toNat) (resOps demo true threeOps)
      (passOps demo (QS.init demo true) [] threeOps) = 11 ∧
    (resOps demo true threeOps).currentT = 12 := by decide +kernel

example : Traj demo true (LawOk demo) (resOps demo true threeOps)
    (passOps demo (QS.init demo true) [] threeOps) := Traj.mono (h := three_traj) fun _ _ h => h.1

/-! ## C83: when services start and end -/

/-- C83: if the number of servers is not changed and services are not delayed, the agents are served in the
order in which they were admitted; the `i`-th starts at the first time, not before its arrival, at which fewer
than `num_servers` of the services of the agents admitted before it are going on; its service ends at
the time `service_f` gave for that start; and those who left are, with the times they left at, all those
whose service started except the ones in service now. -/
theorem C83_start_times {c : QCfg T} (hk : Simple c) (hf : Forward c) {b : Bool} {s : QS T}
    {l : List (QS T)} (h : Traj c b FcfsOk s l) :
    let arr := atStage 0 (stamps s l)
    let start := atStage 1 (stamps s l)
    let left := atStage 2 (stamps s l)
    start.map Prod.fst ++ s.queue.map (·.id) = arr.map Prod.fst ∧
    (∀ i a t, (arr.map Prod.snd)[i]? = some a → (start.map Prod.snd)[i]? = some t →
      IsStart c.servers ((ends c.serviceF (start.map Prod.snd)).take i) a t) ∧
    ((inService s).map (fun a => (a.id, a.time)) ++ left).Perm
      ((start.map Prod.fst).zip (ends c.serviceF (start.map Prod.snd))) := by
  have hi := h.fcfsInv hk hf rfl
  refine ⟨?_, hi.fcfs.2, hi.out⟩
  rw [hi.ids]
  conv_rhs => rw [hi.fifo]
  simp

/-- The log has the entries, in order, that `stamps` gives times to. -/
theorem C83_stamps_log {c : QCfg T} (hk : Simple c) {b : Bool} {s : QS T} {l : List (QS T)}
    (h : Traj c b FcfsOk s l) : (stamps s l).map (fun p => (p.1, p.2.1)) = s.log := by
  induction h with
  | init => rfl
  | step op h h1 h2 ih =>
    have hb := h.reach.base hk
    have ho := opOut c _ _ op hk hb h2
    simp only [stamps, List.map_append, ih, List.map_map, Function.comp_def, Prod.mk.eta, List.map_id']
    have same : ∀ {l l' : List ((Nat × Nat) × Nat)}, (∃ m, l' = l ++ m) → l ++ l'.drop l.length = l' := by
      rintro l l' ⟨m, rfl⟩; simp
    apply same
    cases ho with
    | ev s' r _ h1 =>
      cases h1 with
      | idle _ _ h2 => exact ⟨[], by simp [h2]⟩
      | dep a _ h2 _ =>
        obtain ⟨deps, -, -, g⟩ := h2.served
        rcases g with ⟨b, rest, -, -, -, -, -, e, -⟩ | ⟨-, -, -, -, e, -⟩ <;> exact ⟨_, e⟩
      | arr a rest _ _ _ h2 _ =>
        rcases h2.served with ⟨-, -, -, -, e, -⟩ | ⟨-, -, -, -, e, -⟩ <;> exact ⟨_, e⟩
      | block a rest _ _ _ _ h2 _ => exact ⟨[], by simp [h2.log]⟩
    | srv n s' r h3 => exact absurd rfl (h1.2.2.1 n)
    | delay t kb s' h3 => exact absurd rfl (h1.2.2.2 t kb)
    | clear => exact absurd rfl h1.2.1
    | _ => exact ⟨[], by simp⟩

/-- C83 for one server (Lindley's recursion): everybody starts at the later of its arrival and the end of
the service before. -/
theorem C83_lindley {c : QCfg T} (hk : Simple c) (hf : Forward c) (h1 : c.servers = .fin 1) {b : Bool}
    {s : QS T} {l : List (QS T)} (h : Traj c b FcfsOk s l) {i : Nat} {a t u : T}
    (ha : ((atStage 0 (stamps s l)).map Prod.snd)[i + 1]? = some a)
    (ht : ((atStage 1 (stamps s l)).map Prod.snd)[i + 1]? = some t)
    (hu : ((atStage 1 (stamps s l)).map Prod.snd)[i]? = some u) : t = max a (c.serviceF i u) := by
  obtain ⟨hids, hst, -⟩ := C83_start_times hk hf h
  generalize hA : (atStage 0 (stamps s l)).map Prod.snd = A at *
  generalize hS : (atStage 1 (stamps s l)).map Prod.snd = S at *
  have hlt : i + 1 < S.length := by
    by_contra hc; rw [List.getElem?_eq_none (by omega)] at ht; simp at ht
  have zero : ∀ {p : List T} {x : T}, (Cap.fin 1).lt (p.countP (x < ·)) = true → ∀ y ∈ p, y ≤ x := by
    intro p x hp y hy
    simp only [Cap.lt, decide_eq_true_eq] at hp
    have : p.countP (x < ·) = 0 := by omega
    simpa using (List.countP_eq_zero.mp this) y hy
  have none : ∀ {p : List T} {x : T}, (∀ y ∈ p, y ≤ x) → (Cap.fin 1).lt (p.countP (x < ·)) = true := by
    intro p x hp
    have : p.countP (x < ·) = 0 := List.countP_eq_zero.mpr (fun y hy => by simpa using hp y hy)
    simp [Cap.lt, this]
  obtain ⟨⟨t1, t2⟩, t3⟩ := hst (i + 1) a t ha ht
  have hlenA : S.length ≤ A.length := by
    have := (h.fcfsInv hk hf rfl).fcfs.1
    rwa [hA, hS] at this
  obtain ⟨a', ha'⟩ : ∃ a', A[i]? = some a' := ⟨_, List.getElem?_eq_getElem (by omega)⟩
  obtain ⟨⟨u1, u2⟩, u3⟩ := hst i a' u ha' hu
  rw [h1] at t2 t3 u2
  have hget : (ends c.serviceF S)[i]? = some (c.serviceF i u) := by
    simp [ends, List.getElem?_mapIdx, hu]
  have htake : (ends c.serviceF S).take (i + 1) = (ends c.serviceF S).take i ++ [c.serviceF i u] := by
    rw [List.take_add_one, hget]; rfl
  rw [htake] at t2 t3
  apply le_antisymm
  · refine t3 _ (le_max_left _ _) (none fun y hy => ?_)
    rcases List.mem_append.mp hy with hy | hy
    · exact ((zero u2 y hy).trans (hf.2 i u)).trans (le_max_right _ _)
    · simp at hy; subst hy; exact le_max_right _ _
  · exact max_le t1 (zero t2 _ (by simp))

/-- C83 for infinitely many servers: everybody starts on arrival. -/
theorem C83_infinite_servers {c : QCfg T} (hk : Simple c) (hf : Forward c) (h1 : c.servers = .inf) {b : Bool}
    {s : QS T} {l : List (QS T)} (h : Traj c b FcfsOk s l) {i : Nat} {a t : T}
    (ha : ((atStage 0 (stamps s l)).map Prod.snd)[i]? = some a)
    (ht : ((atStage 1 (stamps s l)).map Prod.snd)[i]? = some t) : t = a := by
  obtain ⟨-, hst, -⟩ := C83_start_times hk hf h
  obtain ⟨⟨t1, t2⟩, t3⟩ := hst i a t ha ht
  exact le_antisymm (t3 a le_rfl (by simp [h1, Cap.lt])) t1

/-- Arrivals at 1, 2, 9; starts at 1, 4, 9; departures at 4, 7, 12. -/
example : let L := stamps (resOps demo true threeOps) (passOps demo (QS.init demo true) [] threeOps)
    (atStage 0 L).map Prod.snd = [1, 2, 9] ∧ (atStage 1 L).map Prod.snd = [1, 4, 9] ∧
    (atStage 2 L).map Prod.snd = [4, 7, 12] := by decide +kernel

example : Traj demo true FcfsOk (resOps demo true threeOps)
    (passOps demo (QS.init demo true) [] threeOps) := Traj.mono (h := three_traj) fun _ _ h => h.2

/-! ## C84: comparison of two queues -/

/-- `n` servers are not more than `m`. -/
def notMore : Cap → Cap → Prop
  | _, .inf => True
  | .inf, .fin _ => False
  | .fin n, .fin m => n ≤ m

/-- C84: let the second queue have at least as many servers, let its arrivals be admitted no later (the
`i`-th no later than the `i`-th of the first) and let its services take no longer (a service started no later
ends no later). Then every service that started in both starts no later, and ends no later, in
the second queue. -/
theorem C84_comparison {c c' : QCfg T} (hk : Simple c) (hk' : Simple c') (hf : Forward c) (hf' : Forward c')
    (hn : notMore c.servers c'.servers)
    (hs : ∀ i t t', t' ≤ t → c'.serviceF i t' ≤ c.serviceF i t) {b b' : Bool} {s s' : QS T}
    {l l' : List (QS T)} (h : Traj c b FcfsOk s l) (h' : Traj c' b' FcfsOk s' l')
    (ha : ∀ (i : Nat) (a a' : T), ((atStage 0 (stamps s l)).map Prod.snd)[i]? = some a →
      ((atStage 0 (stamps s' l')).map Prod.snd)[i]? = some a' → a' ≤ a)
    {i : Nat} {t t' : T} (ht : ((atStage 1 (stamps s l)).map Prod.snd)[i]? = some t)
    (ht' : ((atStage 1 (stamps s' l')).map Prod.snd)[i]? = some t') :
    t' ≤ t ∧ c'.serviceF i t' ≤ c.serviceF i t := by
  obtain ⟨-, hst, -⟩ := C83_start_times hk hf h
  obtain ⟨-, hst', -⟩ := C83_start_times hk' hf' h'
  have hl := (h.fcfsInv hk hf rfl).fcfs.1
  have hl' := (h'.fcfsInv hk' hf' rfl).fcfs.1
  generalize (atStage 0 (stamps s l)).map Prod.snd = A at *
  generalize (atStage 1 (stamps s l)).map Prod.snd = S at *
  generalize (atStage 0 (stamps s' l')).map Prod.snd = A' at *
  generalize (atStage 1 (stamps s' l')).map Prod.snd = S' at *
  have main : t' ≤ t := by
    induction i using Nat.strong_induction_on generalizing t t' with
    | _ i ih =>
    have hi : i < S.length := by
      by_contra hc; rw [List.getElem?_eq_none (by omega)] at ht; simp at ht
    have hi' : i < S'.length := by
      by_contra hc; rw [List.getElem?_eq_none (by omega)] at ht'; simp at ht'
    obtain ⟨⟨t1, t2⟩, -⟩ := hst i A[i] t (List.getElem?_eq_getElem (by omega)) ht
    obtain ⟨-, t3⟩ := hst' i A'[i] t' (List.getElem?_eq_getElem (by omega)) ht'
    refine t3 t ((ha i _ _ (List.getElem?_eq_getElem (by omega))
      (List.getElem?_eq_getElem (by omega))).trans t1) ?_
    have hcount : ((ends c'.serviceF S').take i).countP (t < ·) ≤
        ((ends c.serviceF S).take i).countP (t < ·) := by
      have hle : ∀ k, k ≤ i → ((ends c'.serviceF S').take k).countP (t < ·) ≤
          ((ends c.serviceF S).take k).countP (t < ·) := by
        intro k
        induction k with
        | zero => simp
        | succ k ihk =>
          intro hk1
          have g : (ends c.serviceF S)[k]? = some (c.serviceF k S[k]) := by
            simp [ends, List.getElem?_mapIdx, List.getElem?_eq_getElem (show k < S.length by omega)]
          have g' : (ends c'.serviceF S')[k]? = some (c'.serviceF k S'[k]) := by
            simp [ends, List.getElem?_mapIdx, List.getElem?_eq_getElem (show k < S'.length by omega)]
          have hkk : c'.serviceF k S'[k] ≤ c.serviceF k S[k] :=
            hs k _ _ (ih k (by omega) (List.getElem?_eq_getElem (by omega))
              (List.getElem?_eq_getElem (by omega)))
          rw [List.take_add_one, List.take_add_one, g, g']
          simp only [Option.toList_some, List.countP_append, List.countP_cons, List.countP_nil]
          have := ihk (by omega)
          by_cases hx : t < c'.serviceF k S'[k]
          · simp [hx, hx.trans_le hkk]; omega
          · simp only [hx, decide_false, Bool.false_eq_true, if_false]; omega
      exact hle i le_rfl
    cases hc : c'.servers with
    | inf => rfl
    | fin m =>
      cases hc0 : c.servers with
      | inf => rw [hc, hc0] at hn; exact absurd hn (by simp [notMore])
      | fin n =>
        rw [hc, hc0] at hn
        rw [hc0] at t2
        simp only [notMore] at hn
        simp only [Cap.lt, decide_eq_true_eq] at t2 ⊢
        omega
  exact ⟨main, hs i t t' main⟩

/-- A second server: the agent that waited from 2 to 4 starts at 2. -/
example : let c' := { demo with servers := .fin 2 }
    Traj c' true (fun s op => LawOk c' s op ∧ FcfsOk s op)
      (resOps c' true threeOps) (passOps c' (QS.init c' true) [] threeOps) ∧
    (atStage 1 (stamps (resOps c' true threeOps) (passOps c' (QS.init c' true) [] threeOps))).map
      Prod.snd = [1, 2, 9] ∧ notMore demo.servers c'.servers := by
  refine ⟨Traj.ofOps threeOps .init (okRun_okOps (lawOkB_ok _) _ _ (by decide +kernel)) (by decide +kernel),
    by decide +kernel, by simp [notMore, demo]⟩

end Verif.QueueSpec
