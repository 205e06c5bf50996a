import Verif.QueueLaw

/-! # First come first served with `n` servers as a recursion (specification and proof support) -/

set_option linter.unusedSectionVars false
set_option linter.unusedSimpArgs false
set_option linter.unusedVariables false

namespace Verif

variable {T : Type*} [LinearOrder T] [OrderTop T] [Zero T]

/-- The entries of the log (agent, stage) of the history that led to a state, with the time of the clock
at the end of the call that made the entry. -/
def stamps : QS T → List (QS T) → List ((Nat × Nat) × Nat × T)
  | _, [] => []
  | s', s :: l => stamps s l ++ (s'.log.drop s.log.length).map fun p => (p.1, p.2, s'.currentT)

/-- The entries of one stage (0: admitted, 1: service started, 2: departed): agents and times. -/
def atStage (k : Nat) (l : List ((Nat × Nat) × Nat × T)) : List ((Nat × Nat) × T) :=
  l.filterMap fun p => if p.2.1 = k then some (p.1, p.2.2) else none

@[simp] theorem atStage_append (k : Nat) (l l' : List ((Nat × Nat) × Nat × T)) :
    atStage k (l ++ l') = atStage k l ++ atStage k l' := by simp [atStage]

/-- Times at which the services end that start at the times `S` (the `j`-th start is the `j`-th call of
`service_f`). -/
def ends (svc : Nat → T → T) (S : List T) : List T := S.mapIdx svc

/-- `t` is the first time, not before `a`, at which fewer than `n` of the services that end at the times
`prev` are still going on. -/
def IsStart (n : Cap) (prev : List T) (a t : T) : Prop :=
  (a ≤ t ∧ n.lt (prev.countP (t < ·)) = true) ∧ ∀ u, a ≤ u → n.lt (prev.countP (u < ·)) = true → t ≤ u

/-- First come first served with `n` servers: the `i`-th arrival starts at the first time, not before its
arrival, at which fewer than `n` of the services of the arrivals before it are going on. -/
def Fcfs (n : Cap) (svc : Nat → T → T) (A S : List T) : Prop :=
  S.length ≤ A.length ∧
  ∀ i a t, A[i]? = some a → S[i]? = some t → IsStart n ((ends svc S).take i) a t

theorem Cap.lt_mono {n : Cap} {a b : Int} (h : n.lt b = true) (hab : a ≤ b) : n.lt a = true := by
  cases hc : n.lt a with
  | true => rfl
  | false => rw [Cap.lt_false_of_le hc hab] at h; exact h

theorem ends_snoc (svc : Nat → T → T) (S : List T) (t : T) :
    ends svc (S ++ [t]) = ends svc S ++ [svc S.length t] := by simp [ends]

@[simp] theorem ends_length (svc : Nat → T → T) (S : List T) : (ends svc S).length = S.length := by
  simp [ends]

theorem Fcfs.arrive {n : Cap} {svc : Nat → T → T} {A S : List T} (h : Fcfs n svc A S) (a : T) :
    Fcfs n svc (A ++ [a]) S := by
  refine ⟨by simp; exact h.1.trans (Nat.le_succ _), fun i b t h1 h2 => h.2 i b t ?_ h2⟩
  have hi : i < S.length := by
    by_contra hc; rw [List.getElem?_eq_none (by omega)] at h2; simp at h2
  rwa [List.getElem?_append_left (by have := h.1; omega)] at h1

theorem Fcfs.begin {n : Cap} {svc : Nat → T → T} {A S : List T} (h : Fcfs n svc A S) {a t : T}
    (ha : A[S.length]? = some a) (hs : IsStart n (ends svc S) a t) : Fcfs n svc A (S ++ [t]) := by
  have hlt : S.length < A.length := by
    by_contra hc; rw [List.getElem?_eq_none (by omega)] at ha; simp at ha
  refine ⟨by simp; omega, fun i b u h1 h2 => ?_⟩
  rw [ends_snoc]
  rcases Nat.lt_trichotomy i S.length with hi | hi | hi
  · rw [List.take_append_of_le_length (by simp; omega)]
    refine h.2 i b u h1 ?_
    rwa [List.getElem?_append_left hi] at h2
  · subst hi
    rw [List.take_append_of_le_length (by simp), List.take_of_length_le (by simp)]
    rw [h1] at ha
    simp at h2 ha
    subst h2 ha
    exact hs
  · rw [List.getElem?_eq_none (by simp; omega)] at h2; simp at h2

/-- No call changes the number of servers or the time of a departure, and nothing is cleared. -/
def FcfsOk (s : QS T) (op : QOp T) : Prop :=
  ClockOk s op ∧ op ≠ .clear ∧ (∀ n, op ≠ .setServers n) ∧ ∀ t k, op ≠ .delay t k

/-- The state and the stamped log `L` agree with the recursion. -/
structure FcfsInv (c : QCfg T) (n : Cap) (s : QS T) (L : List ((Nat × Nat) × Nat × T)) : Prop where
  srv : s.numServers = c.servers
  calls : s.svcCalls = (atStage 1 L).length
  fifo : atStage 0 L = (atStage 0 L).take (atStage 1 L).length ++ s.queue.map fun a => (a.id, a.time)
  ids : (atStage 1 L).map Prod.fst = ((atStage 0 L).take (atStage 1 L).length).map Prod.fst
  past : ∀ p ∈ atStage 2 L, p.2 ≤ s.currentT
  early : ∀ p ∈ atStage 0 L, p.2 ≤ s.currentT
  out : ((agents s.departures).map (fun a => (a.id, a.time)) ++ atStage 2 L).Perm
    (((atStage 1 L).map Prod.fst).zip (ends c.serviceF ((atStage 1 L).map Prod.snd)))
  fcfs : Fcfs n c.serviceF ((atStage 0 L).map Prod.snd) ((atStage 1 L).map Prod.snd)

theorem zip_snoc {α β : Type*} (l : List α) (m : List β) (h : l.length = m.length) (a : α) (b : β) :
    (l ++ [a]).zip (m ++ [b]) = l.zip m ++ [(a, b)] := by
  rw [List.zip_append h]; rfl

theorem FcfsInv.times {c : QCfg T} {n : Cap} {s : QS T} {L : List ((Nat × Nat) × Nat × T)}
    (h : FcfsInv c n s L) :
    ((agents s.departures).map (·.time) ++ (atStage 2 L).map Prod.snd).Perm
      (ends c.serviceF ((atStage 1 L).map Prod.snd)) := by
  have := h.out.map Prod.snd
  rw [List.map_snd_zip (by simp)] at this
  simpa [Function.comp_def] using this

theorem FcfsInv.step {c : QCfg T} {n : Cap} {s s' : QS T} {op : QOp T}
    {L : List ((Nat × Nat) × Nat × T)} (hk : Simple c) (hn : c.servers = n) (hb : QBase s) (hq : QInv s)
    (hcl : ClockInv s) (hok : FcfsOk s op) (h : FcfsInv c n s L) (ho : OpOut c s op s') :
    FcfsInv c n s' (L ++ (s'.log.drop s.log.length).map fun p => (p.1, p.2, s'.currentT)) := by
  have hsrv := h.srv
  rw [hn] at hsrv
  have still : ∀ {s' : QS T}, s'.log = s.log → s'.numServers = s.numServers → s'.svcCalls = s.svcCalls →
      s'.queue = s.queue → s.currentT ≤ s'.currentT → s'.departures = s.departures →
      FcfsInv c n s' (L ++ (s'.log.drop s.log.length).map fun p => (p.1, p.2, s'.currentT)) := by
    intro s' e1 e2 e3 e4 e5 e6
    rw [e1, List.drop_length, List.map_nil, List.append_nil]
    exact ⟨by rw [e2]; exact h.srv, by rw [e3]; exact h.calls, by rw [e4]; exact h.fifo, h.ids,
      fun p hp => (h.past p hp).trans e5, fun p hp => (h.early p hp).trans e5,
      by rw [e6]; exact h.out, h.fcfs⟩
  have hlen : (atStage 1 L).length ≤ (atStage 0 L).length := by
    have := h.fcfs.1; simpa using this
  -- the services going on later than `t`
  have later : ∀ t, s.currentT ≤ t →
      (ends c.serviceF ((atStage 1 L).map Prod.snd)).countP (t < ·) =
        ((agents s.departures).map (·.time)).countP (t < ·) := by
    intro t ht
    rw [← h.times.countP_eq, List.countP_append]
    have : ((atStage 2 L).map Prod.snd).countP (t < ·) = 0 := by
      rw [List.countP_eq_zero]
      intro u hu
      obtain ⟨p, hp, rfl⟩ := List.mem_map.mp hu
      simpa using (h.past p hp).trans ht
    rw [this, Nat.add_zero]
  cases ho with
  | ev s' r _ h1 =>
    cases h1 with
    | idle _ _ h2 => subst h2; exact still rfl rfl rfl rfl le_rfl rfl
    | dep a hlt h2 _ =>
      have hnow : s.currentT ≤ a.time := by
        rw [h2.time_eq]; exact (hcl.nextTime_ge hb).trans (min_le_right _ _)
      obtain ⟨deps, g1, g2, g3⟩ := h2.served
      have hmin : ∀ x ∈ agents s.departures, a.time ≤ x.time := by
        intro x hx; rw [h2.time_eq]; exact hb.okD.le x hx
      rcases g3 with ⟨b, rest, k1, kc, k3, k4, k5, k6, -⟩ | ⟨-, k2, k3, k4, k5, -⟩
      · rw [k6, List.drop_left, h2.currentT]
        have e0 : atStage 0 (L ++ [(b.id, 1), (a.id, 2)].map fun p => (p.1, p.2, a.time)) = atStage 0 L := by
          simp [atStage]
        have e1 : atStage 1 (L ++ [(b.id, 1), (a.id, 2)].map fun p => (p.1, p.2, a.time)) =
            atStage 1 L ++ [(b.id, a.time)] := by simp [atStage]
        have e2 : atStage 2 (L ++ [(b.id, 1), (a.id, 2)].map fun p => (p.1, p.2, a.time)) =
            atStage 2 L ++ [(a.id, a.time)] := by simp [atStage]
        have hfifo := h.fifo
        rw [k1] at hfifo
        have hget : (atStage 0 L)[(atStage 1 L).length]? = some (b.id, b.time) := by
          rw [hfifo, List.getElem?_append_right (by simp)]; simp [hlen]
        have htake : (atStage 0 L).take ((atStage 1 L).length + 1) =
            (atStage 0 L).take (atStage 1 L).length ++ [(b.id, b.time)] := by
          rw [List.take_add_one, hget]; rfl
        have hlen1 : deps.length = (agents deps).length + 1 := g2.one
        have hl1 := g1.length_eq
        simp only [List.length_cons] at hl1
        have hwork := hq.work (by rw [k1]; simp)
        rw [hsrv] at hwork kc
        have hsys := hq.numSystem
        have hst : IsStart n (ends c.serviceF ((atStage 1 L).map Prod.snd)) b.time a.time := by
          refine ⟨⟨?_, ?_⟩, fun u hu hcu => ?_⟩
          · exact (h.early (b.id, b.time) (by
              have := List.mem_of_getElem? hget; exact this)).trans hnow
          · rw [later a.time hnow, (g1.map (·.time)).countP_eq]
            simp only [List.map_cons, List.countP_cons, lt_self_iff_false, decide_false,
              Bool.false_eq_true, if_false, Nat.add_zero]
            have := List.countP_le_length (p := fun x => decide (a.time < x)) (l := (agents deps).map (·.time))
            simp only [List.length_map] at this
            exact Cap.lt_mono kc (by omega)
          · by_contra hlt'
            rw [not_le] at hlt'
            have : (agents s.departures).length ≤
                (ends c.serviceF ((atStage 1 L).map Prod.snd)).countP (u < ·) := by
              rw [← h.times.countP_eq, List.countP_append]
              have : ((agents s.departures).map (·.time)).countP (u < ·) = (agents s.departures).length := by
                rw [← List.length_map (f := (·.time)), List.countP_eq_length]
                intro x hx
                obtain ⟨y, hy, rfl⟩ := List.mem_map.mp hx
                simpa using hlt'.trans_le (hmin y hy)
              omega
            rw [Cap.lt_false_of_le hwork (b := ((ends c.serviceF ((atStage 1 L).map Prod.snd)).countP (u < ·) : Nat))
              (by exact_mod_cast this)] at hcu
            simp at hcu
        refine ⟨by rw [h2.numServers]; exact h.srv, ?_, ?_, ?_, ?_, ?_, ?_, ?_⟩
        · rw [k4, e1, h.calls]; simp
        · rw [e0, e1, k3, List.length_append, List.length_singleton, htake]
          conv_lhs => rw [hfifo]
          simp
        · rw [e0, e1, List.length_append, List.length_singleton, htake, List.map_append, List.map_append, h.ids]
          rfl
        · rw [e2, h2.currentT]
          intro p hp
          rcases List.mem_append.mp hp with hp | hp
          · exact (h.past p hp).trans hnow
          · simp at hp; subst hp; exact le_rfl
        · rw [e0, h2.currentT]; exact fun p hp => (h.early p hp).trans hnow
        · rw [e1, e2, List.map_append, List.map_append]
          simp only [List.map_cons, List.map_nil]
          rw [ends_snoc, zip_snoc _ _ (by simp)]
          have q1 := k5.map (fun x : Agent T => (x.id, x.time))
          have q2 := g1.map (fun x : Agent T => (x.id, x.time))
          simp only [List.map_cons, ← h.calls, List.length_map] at q1 q2 ⊢
          refine ((q1.append_right _).trans ?_).trans ((h.out.append_right _))
          have : ((b.id, c.serviceF s.svcCalls a.time) :: (agents deps).map (fun x => (x.id, x.time)) ++
              (atStage 2 L ++ [(a.id, a.time)])).Perm
              ((((a.id, a.time) :: (agents deps).map fun x => (x.id, x.time)) ++ atStage 2 L) ++
                [(b.id, c.serviceF s.svcCalls a.time)]) := by
            simp only [List.cons_append]
            refine List.Perm.trans ?_ (List.Perm.cons _ (List.perm_append_comm
              (l₁ := [(b.id, c.serviceF s.svcCalls a.time)])))
            simp only [List.cons_append, List.nil_append]
            refine List.Perm.trans ?_ (List.Perm.swap _ _ _)
            refine List.Perm.cons _ ?_
            rw [← List.append_assoc]
            exact (List.perm_append_comm (l₂ := [(a.id, a.time)]))
          refine this.trans ?_
          exact (q2.symm.append_right _).append_right _
        · rw [e0, e1, List.map_append]
          exact h.fcfs.begin (a := b.time) (by simp [hget]) hst
      · rw [k5, List.drop_left, h2.currentT]
        have e0 : atStage 0 (L ++ [(a.id, 2)].map fun p => (p.1, p.2, a.time)) = atStage 0 L := by
          simp [atStage]
        have e1 : atStage 1 (L ++ [(a.id, 2)].map fun p => (p.1, p.2, a.time)) = atStage 1 L := by
          simp [atStage]
        have e2 : atStage 2 (L ++ [(a.id, 2)].map fun p => (p.1, p.2, a.time)) =
            atStage 2 L ++ [(a.id, a.time)] := by simp [atStage]
        refine ⟨by rw [h2.numServers]; exact h.srv, by rw [e1, k3]; exact h.calls,
          by rw [e0, e1, k2]; exact h.fifo, by rw [e0, e1]; exact h.ids, ?_, ?_, ?_, by rw [e0, e1]; exact h.fcfs⟩
        · rw [e2, h2.currentT]
          intro p hp
          rcases List.mem_append.mp hp with hp | hp
          · exact (h.past p hp).trans hnow
          · simp at hp; subst hp; exact le_rfl
        · rw [e0, h2.currentT]; exact fun p hp => (h.early p hp).trans hnow
        · rw [e1, e2, k4]
          refine List.Perm.trans ?_ h.out
          have q2 := (g1.map (fun x : Agent T => (x.id, x.time))).append_right (atStage 2 L)
          refine List.Perm.trans ?_ q2.symm
          simp only [List.map_cons, List.cons_append]
          rw [← List.append_assoc]
          exact (List.perm_append_comm (l₂ := [(a.id, a.time)]))
    | arr a rest hle _ _ h2 _ =>
      have hnow : s.currentT ≤ a.time := by
        rw [h2.time_eq]; exact (hcl.nextTime_ge hb).trans (min_le_left _ _)
      rcases h2.served with ⟨kc, k2, k3, k4, k5, -⟩ | ⟨-, k2, k3, k4, k5, -⟩
      · rw [k5, List.drop_left, h2.currentT]
        have e0 : atStage 0 (L ++ [(a.id, 0), (a.id, 1)].map fun p => (p.1, p.2, a.time)) =
            atStage 0 L ++ [(a.id, a.time)] := by simp [atStage]
        have e1 : atStage 1 (L ++ [(a.id, 0), (a.id, 1)].map fun p => (p.1, p.2, a.time)) =
            atStage 1 L ++ [(a.id, a.time)] := by simp [atStage]
        have e2 : atStage 2 (L ++ [(a.id, 0), (a.id, 1)].map fun p => (p.1, p.2, a.time)) = atStage 2 L := by
          simp [atStage]
        rw [hsrv, Cap.le_eq_lt] at kc
        have hsys := hq.numSystem
        have hq0 : s.queue = [] := by
          by_contra hne
          have hwork := hq.work hne
          rw [hsrv] at hwork
          rw [Cap.lt_false_of_le hwork (b := s.numSystem) (by omega)] at kc
          simp at kc
        have hfifo := h.fifo
        rw [hq0, List.map_nil, List.append_nil] at hfifo
        have hle2 : (atStage 0 L).length = (atStage 1 L).length := by
          have := congrArg List.length hfifo
          rw [List.length_take] at this
          omega
        have hst : IsStart n (ends c.serviceF ((atStage 1 L).map Prod.snd)) a.time a.time := by
          refine ⟨⟨le_rfl, ?_⟩, fun u hu _ => hu⟩
          rw [later a.time hnow]
          have := List.countP_le_length (p := fun x => decide (a.time < x))
            (l := (agents s.departures).map (·.time))
          simp only [List.length_map] at this
          exact Cap.lt_mono kc (by omega)
        have htk : (atStage 0 L ++ [(a.id, a.time)]).take ((atStage 1 L).length + 1) =
            atStage 0 L ++ [(a.id, a.time)] := List.take_of_length_le (by simp [hle2])
        refine ⟨by rw [h2.numServers]; exact h.srv, ?_, ?_, ?_, ?_, ?_, ?_, ?_⟩
        · rw [k3, e1, h.calls]; simp
        · rw [e0, e1, k2, hq0, List.length_append, List.length_singleton, htk]; simp
        · rw [e0, e1, List.length_append, List.length_singleton, htk, List.map_append, List.map_append, h.ids,
            ← hfifo]
        · rw [e2, h2.currentT]; exact fun p hp => (h.past p hp).trans hnow
        · rw [e0, h2.currentT]
          intro p hp
          rcases List.mem_append.mp hp with hp | hp
          · exact (h.early p hp).trans hnow
          · simp at hp; subst hp; exact le_rfl
        · rw [e1, e2, List.map_append, List.map_append]
          simp only [List.map_cons, List.map_nil]
          rw [ends_snoc, zip_snoc _ _ (by simp)]
          have q1 := (k4.map (fun x : Agent T => (x.id, x.time))).append_right (atStage 2 L)
          simp only [List.map_cons, ← h.calls, List.length_map, List.cons_append] at q1 ⊢
          refine q1.trans (List.Perm.trans ?_ (h.out.append_right _))
          exact List.perm_append_comm (l₁ := [_])
        · rw [e0, e1, List.map_append, List.map_append]
          refine (h.fcfs.arrive a.time).begin (a := a.time) ?_ hst
          rw [List.length_map, ← hle2]; simp
      · rw [k5, List.drop_left, h2.currentT]
        have e0 : atStage 0 (L ++ [(a.id, 0)].map fun p => (p.1, p.2, a.time)) =
            atStage 0 L ++ [(a.id, a.time)] := by simp [atStage]
        have e1 : atStage 1 (L ++ [(a.id, 0)].map fun p => (p.1, p.2, a.time)) = atStage 1 L := by
          simp [atStage]
        have e2 : atStage 2 (L ++ [(a.id, 0)].map fun p => (p.1, p.2, a.time)) = atStage 2 L := by
          simp [atStage]
        have htk : (atStage 0 L ++ [(a.id, a.time)]).take (atStage 1 L).length =
            (atStage 0 L).take (atStage 1 L).length := List.take_append_of_le_length hlen
        refine ⟨by rw [h2.numServers]; exact h.srv, by rw [e1, k3]; exact h.calls, ?_, ?_, ?_, ?_, ?_, ?_⟩
        · rw [e0, e1, k2, htk, List.map_append, ← List.append_assoc]
          conv_lhs => rw [h.fifo]
          rfl
        · rw [e0, e1, htk]; exact h.ids
        · rw [e2, h2.currentT]; exact fun p hp => (h.past p hp).trans hnow
        · rw [e0, h2.currentT]
          intro p hp
          rcases List.mem_append.mp hp with hp | hp
          · exact (h.early p hp).trans hnow
          · simp at hp; subst hp; exact le_rfl
        · rw [e1, e2, k4]; exact h.out
        · rw [e0, e1, List.map_append]; exact h.fcfs.arrive a.time
    | block a rest hle _ hl _ h2 _ =>
      refine still h2.log h2.numServers h2.svcCalls h2.queue ?_ h2.departures
      rw [h2.currentT, h2.time_eq]; exact (hcl.nextTime_ge hb).trans (min_le_left _ _)
  | already => exact still rfl rfl rfl rfl le_rfl rfl
  | act => exact still rfl rfl rfl rfl le_rfl rfl
  | inact => exact still rfl rfl rfl rfl le_rfl rfl
  | srv m s' r h1 => exact absurd rfl (hok.2.2.1 m)
  | delay t kb s' h1 => exact absurd rfl (hok.2.2.2 t kb)
  | collect => exact still rfl rfl rfl rfl le_rfl rfl
  | noteFull => exact still rfl rfl rfl rfl le_rfl rfl
  | noteOpen => exact still rfl rfl rfl rfl le_rfl rfl
  | clearData => exact still rfl rfl rfl rfl le_rfl rfl
  | clear => exact absurd rfl hok.2.1
  | handover a arr h1 h2 h3 => exact still rfl rfl rfl rfl le_rfl rfl

theorem Traj.fcfsInv {c : QCfg T} {b : Bool} {n : Cap} {s : QS T} {l : List (QS T)} (hk : Simple c)
    (hf : Forward c) (hn : c.servers = n) (h : Traj c b FcfsOk s l) : FcfsInv c n s (stamps s l) := by
  induction h with
  | init =>
    constructor <;> simp [QS.init, stamps, atStage, ends, Fcfs]
  | step op h h1 h2 ih =>
    have hr := h.reach
    have hb := hr.base hk
    exact ih.step hk hn hb (hr.inv hk) (hr.clock hk hf fun _ _ h => h.1) h1 (opOut c _ _ op hk hb h2)

end Verif
