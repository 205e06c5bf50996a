import Verif.Forget
import Verif.Props.Forget
import Verif.Props.Queue4

/-!
# C117: which rows are recorded when data collection is switched on and off

For a QueueServer or LossQueue by itself.
-/

set_option linter.unusedSectionVars false

namespace Verif.QueueSpec

variable {T : Type*} [LinearOrder T] [OrderTop T] [Zero T]

/-- The elements with mark `true`. -/
def marked {α : Type*} : List Bool → List α → List α
  | b :: m, r :: R => if b then r :: marked m R else marked m R
  | _, _ => []

/-- The agent with id `x` is waiting or in service. -/
def Here (x : Nat × Nat) (s : QS T) : Prop := x ∈ s.queue.map (·.id) ∨ x ∈ (inService s).map (·.id)

/-- Two queues `s`, `p` with which the same is done, except that `p` collects data throughout and keeps them, while
for `s` collection is switched on and off and data are cleared; `m` says of every visit of agent `x` recorded by `p`
whether `s` was collecting data when it began and has not cleared them since. Collection is not switched while `x` is
in the queue and has rows in `data`. -/
inductive Both (c : QCfg T) (b : Bool) (x : Nat × Nat) : QS T → QS T → List Bool → Prop
  | new : Both c b x (QS.init c b) (QS.init c true) []
  | call {s p s' p' : QS T} {m : List Bool} (op : QOp T) : Both c b x s p m → DataOk c p op → op ≠ .clear →
      op.run c s = .ok s' → op.run c p = .ok p' →
      Both c b x s' p' (if (p'.data.rows x).length = (p.data.rows x).length then m else m ++ [s.collectData])
  | clear {s p : QS T} {m : List Bool} : Both c b x s p m → Both c b x (Verif.clear c s) (Verif.clear c p) []
  | clearData {s p : QS T} {m : List Bool} : Both c b x s p m →
      Both c b x { s with data := [] } p (m.map fun _ => false)
  | switch {s p : QS T} {m : List Bool} (on : Bool) : Both c b x s p m →
      on = s.collectData ∨ ¬ Here x s ∨ s.data.rows x = [] → Both c b x { s with collectData := on } p m

theorem marked_snoc {α : Type*} (m : List Bool) (R : List α) (b : Bool) (r : α) (h : m.length = R.length) :
    marked (m ++ [b]) (R ++ [r]) = marked m R ++ if b then [r] else [] := by
  induction m generalizing R with
  | nil =>
    cases R with
    | nil => cases b <;> rfl
    | cons => simp at h
  | cons b' m ih =>
    cases R with
    | nil => simp at h
    | cons r' R =>
      simp only [List.cons_append, marked, ih R (by simpa using h)]
      cases b' <;> simp

theorem marked_false {α : Type*} (m : List Bool) (R : List α) : marked (m.map fun _ => false) R = [] := by
  induction m generalizing R with
  | nil => rfl
  | cons b m ih =>
    cases R with
    | nil => rfl
    | cons r R =>
      simp only [List.map_cons, marked, Bool.false_eq_true, if_false]
      exact ih R

theorem marked_sublist {α : Type*} (m : List Bool) (R : List α) : (marked m R).Sublist R := by
  induction m generalizing R with
  | nil => exact List.nil_sublist _
  | cons b m ih =>
    cases R with
    | nil => exact List.nil_sublist _
    | cons r R =>
      simp only [marked]
      cases b
      · exact (ih R).cons r
      · exact (ih R).cons_cons r

/-- What an event does to the rows of agent `x` if data are collected. -/
def effEv (c : QCfg T) (s : QS T) (x : Nat × Nat) : List (Row T) → List (Row T) :=
  if headTime s.departures < headTime s.arrivals then
    match s.departures.head? with
    | some (.agent a) =>
      if x = a.id then modLast fun r => { r with dep := a.time }
      else match s.queue with
        | b :: _ => if x = b.id ∧ s.numServers.lt (s.numSystem - 1 - s.queue.length) = true then
            modLast fun r => { r with start := a.time } else id
        | [] => id
    | _ => id
  else if headTime s.arrivals < ⊤ then
    match s.arrivals.head? with
    | some (.agent a) =>
      if x = a.id then fun R => R ++ [
        if c.kind = .loss ∧ (s.numServers.add c.buffer).lt s.numSystem = false then
          ⟨a.time, 0, 0, s.queue.length, s.numSystem⟩
        else if s.numServers.le (s.numSystem + 1) = true then ⟨a.time, a.time, 0, s.queue.length, s.numSystem + 1⟩
        else ⟨a.time, 0, 0, s.queue.length + 1, s.numSystem + 1⟩]
      else id
    | _ => id
  else id

/-- How many agents `set_num_servers(n)` takes into service. -/
def effServ (s : QS T) (n : PyNum) : Nat :=
  match n with
  | .int m => if 0 < m then (agentsToQueue (.fin m) s.numServers s.queue.length).getD 0 else 0
  | .infty => if s.numServers = .inf then 0 else (agentsToQueue .inf s.numServers s.queue.length).getD 0
  | .other => 0

/-- What a call does to the rows of agent `x` if data are collected. -/
def eff (c : QCfg T) (s : QS T) (op : QOp T) (x : Nat × Nat) : List (Row T) → List (Row T) :=
  match op with
  | .next => effEv c s x
  | .setServers n => if x ∈ (s.queue.take (effServ s n)).map (·.id) then modLast fun r => { r with start := s.currentT } else id
  | _ => id

theorem eff_forget (c : QCfg T) (s : QS T) (op : QOp T) (x : Nat × Nat) : eff c s.forget op x = eff c s op x := rfl

theorem rows_eff {c : QCfg T} {s s' : QS T} {op : QOp T} (x : Nat × Nat) (hn : (presentIds s).Nodup) (h : OpOut c s op s')
    (h1 : op ≠ .clear) (h2 : op ≠ .clearData) (h3 : ∀ b, op ≠ .collect b) :
    s'.collectData = s.collectData ∧
    s'.data.rows x = (if s.collectData then eff c s op x (s.data.rows x) else s.data.rows x) ∧
    ((eff c s op x = id ∧ (Here x s' ↔ Here x s)) ∨ (Here x s ∧ ∃ f, eff c s op x = modLast f) ∨
      (¬ Here x s ∧ ∃ r, eff c s op x = fun R => R ++ [r])) := by
  have same : ∀ s' : QS T, s'.collectData = s.collectData → s'.data = s.data → (Here x s' ↔ Here x s) → eff c s op x = id →
      s'.collectData = s.collectData ∧
      s'.data.rows x = (if s.collectData then eff c s op x (s.data.rows x) else s.data.rows x) ∧
      ((eff c s op x = id ∧ (Here x s' ↔ Here x s)) ∨ (Here x s ∧ ∃ f, eff c s op x = modLast f) ∨
        (¬ Here x s ∧ ∃ r, eff c s op x = fun R => R ++ [r])) := by
    intro s' e1 e2 e3 e4
    refine ⟨e1, ?_, .inl ⟨e4, e3⟩⟩
    rw [e4, e2]
    simp
  cases h with
  | ev s' r hr h =>
    cases h with
    | idle e1 e2 e3 =>
      subst e3
      refine same s' rfl rfl Iff.rfl ?_
      simp only [eff, effEv, e1, e2, lt_irrefl, if_false]
    | dep a hlt h hh =>
      obtain ⟨deps, g1, -, g3⟩ := h.served
      have g1' : ((agents s.departures).map (·.id)).Perm (a.id :: (agents deps).map (·.id)) := by
        simpa using g1.map (fun x : Agent T => x.id)
      have hq := (List.nodup_append.mp hn).2.1
      have hdis : ∀ y ∈ s.queue.map (·.id), ∀ z ∈ (agents s.departures).map (·.id), y ≠ z := (List.nodup_append.mp hq).2.2
      have haq : a.id ∉ s.queue.map (·.id) := fun hm => hdis _ hm _ (g1'.mem_iff.mpr (by simp)) rfl
      have e0 : eff c s .next x = if x = a.id then modLast fun r => { r with dep := a.time }
          else match s.queue with
          | b :: _ => if x = b.id ∧ s.numServers.lt (s.numSystem - 1 - s.queue.length) = true then
              modLast fun r => { r with start := a.time } else id
          | [] => id := by
        simp only [eff, effEv, if_pos hlt, hh]
      refine ⟨h.collectData, ?_, ?_⟩
      · rw [e0]
        rcases g3 with ⟨b, rest, k1, k2, -, -, -, -, k7⟩ | ⟨k1, -, -, -, -, k6⟩
        · have hb' : b.id ≠ a.id := fun hm => haq (by rw [k1]; simp [hm])
          rw [k7]
          cases hc : s.collectData
          · rfl
          simp only [if_true]
          rw [Data.rows_modify, Data.rows_modify, Data.rows_modify, k2, k1]
          by_cases hxa : x = a.id
          · subst hxa
            simp [Ne.symm hb']
          · by_cases hxb : x = b.id
            · subst hxb; simp [hxa]
            · simp [hxa, hxb]
        · rw [k6]
          cases hc : s.collectData
          · rfl
          simp only [if_true]
          rw [Data.rows_modify]
          by_cases hxa : x = a.id
          · subst hxa; simp
          · rcases k1 with k1 | k1
            · simp [hxa, k1]
            · rw [k1]; cases s.queue <;> simp [hxa]
      · rw [e0]
        by_cases hxa : x = a.id
        · exact .inr (.inl ⟨.inr (by unfold inService; rw [hxa]; exact g1'.mem_iff.mpr (by simp)), _, by rw [if_pos hxa]⟩)
        rw [if_neg hxa]
        rcases g3 with ⟨b, rest, k1, k2, k3, -, k5, -, -⟩ | ⟨k1, k2, -, k4, -, -⟩
        · have k5' : ((agents s'.departures).map (·.id)).Perm (b.id :: (agents deps).map (·.id)) := by
            simpa using k5.map (fun x : Agent T => x.id)
          by_cases hxb : x = b.id
          · refine .inr (.inl ⟨.inl (by rw [k1, hxb]; simp), fun r => { r with start := a.time }, ?_⟩)
            rw [k2, k1]
            simp only [hxb, and_self, if_true]
          · refine .inl ⟨by rw [k1]; simp [hxb], ?_⟩
            unfold Here inService
            rw [g1'.mem_iff, k5'.mem_iff, k1, k3]
            simp [hxa, hxb]
        · refine .inl ⟨?_, ?_⟩
          · rcases k1 with k1 | k1
            · rw [k1]
            · rw [k1]; cases s.queue <;> simp
          · unfold Here inService
            rw [g1'.mem_iff, k2, k4]
            simp [hxa]
    | arr a rest hle hlt hcap h hh =>
      have hnl : ¬ (c.kind = .loss ∧ (s.numServers.add c.buffer).lt s.numSystem = false) := by
        rintro ⟨h1, h2⟩
        rw [hcap h1] at h2
        cases h2
      have hpres : (presentIds s).Perm (a.id :: ((agents rest).map (·.id) ++
          (s.queue.map (·.id) ++ (agents s.departures).map (·.id)))) := by
        unfold presentIds
        have := (h.perm.map (fun x : Agent T => x.id)).append_right
          (s.queue.map (·.id) ++ (agents s.departures).map (·.id))
        simpa using this
      have hna := (List.nodup_cons.mp (hpres.nodup_iff.mp hn)).1
      simp only [List.mem_append, not_or] at hna
      have e0 : eff c s .next x = if x = a.id then fun R => R ++ [
          if s.numServers.le (s.numSystem + 1) = true then ⟨a.time, a.time, 0, s.queue.length, s.numSystem + 1⟩
          else ⟨a.time, 0, 0, s.queue.length + 1, s.numSystem + 1⟩] else id := by
        simp only [eff, effEv, if_neg (not_lt.2 hle), if_pos hlt, hh, if_neg hnl]
      refine ⟨h.collectData, ?_, ?_⟩
      · rw [e0]
        rcases h.served with ⟨k1, -, -, -, -, k6⟩ | ⟨k1, -, -, -, -, k6⟩
        · rw [k6]
          cases hc : s.collectData
          · rfl
          simp only [if_true]
          rw [Data.rows_modify, Data.rows_append, Data.rows_append]
          by_cases hxa : x = a.id
          · subst hxa; simp [modLast_snoc, k1]
          · simp [hxa]
        · rw [k6]
          cases hc : s.collectData
          · rfl
          simp only [if_true]
          rw [Data.rows_append]
          by_cases hxa : x = a.id
          · subst hxa; simp [k1]
          · simp [hxa]
      · rw [e0]
        by_cases hxa : x = a.id
        · exact .inr (.inr ⟨by rw [hxa]; exact fun hm => hm.elim hna.2.1 hna.2.2, _, by rw [if_pos hxa]⟩)
        · refine .inl ⟨by rw [if_neg hxa], ?_⟩
          unfold Here inService
          rcases h.served with ⟨-, k2, -, k4, -, -⟩ | ⟨-, k2, -, k4, -, -⟩
          · have k4' : ((agents s'.departures).map (·.id)).Perm (a.id :: (agents s.departures).map (·.id)) := by
              simpa using k4.map (fun x : Agent T => x.id)
            rw [k4'.mem_iff, k2]
            simp [hxa]
          · rw [k2, k4]
            simp [hxa]
    | block a rest hle hlt hl hcap h hh =>
      have hpres : (presentIds s).Perm (a.id :: ((agents rest).map (·.id) ++
          (s.queue.map (·.id) ++ (agents s.departures).map (·.id)))) := by
        unfold presentIds
        have := (h.perm.map (fun x : Agent T => x.id)).append_right
          (s.queue.map (·.id) ++ (agents s.departures).map (·.id))
        simpa using this
      have hna := (List.nodup_cons.mp (hpres.nodup_iff.mp hn)).1
      simp only [List.mem_append, not_or] at hna
      have e0 : eff c s .next x = if x = a.id then fun R => R ++ [⟨a.time, 0, 0, s.queue.length, s.numSystem⟩] else id := by
        simp only [eff, effEv, if_neg (not_lt.2 hle), if_pos hlt, hh, if_pos (And.intro hl hcap)]
      refine ⟨h.collectData, ?_, ?_⟩
      · rw [e0, h.data]
        cases hc : s.collectData
        · rfl
        simp only [if_true]
        rw [Data.rows_append]
        by_cases hxa : x = a.id
        · subst hxa; simp
        · simp [hxa]
      · rw [e0]
        by_cases hxa : x = a.id
        · exact .inr (.inr ⟨by rw [hxa]; exact fun hm => hm.elim hna.2.1 hna.2.2, _, by rw [if_pos hxa]⟩)
        · refine .inl ⟨by rw [if_neg hxa], ?_⟩
          unfold Here inService
          rw [h.queue, h.departures]
  | already => exact same _ rfl rfl Iff.rfl rfl
  | act => exact same _ rfl rfl Iff.rfl rfl
  | inact => exact same _ rfl rfl Iff.rfl rfl
  | srv n s' r h =>
    cases h with
    | typ h =>
      refine same _ rfl rfl Iff.rfl ?_
      have : effServ s n = 0 := by
        rcases h with rfl | ⟨rfl, h⟩
        · rfl
        · simp [effServ, h]
      simp [eff, this]
    | val m h hm =>
      refine same _ rfl rfl Iff.rfl ?_
      have : effServ s n = 0 := by
        subst h
        simp only [effServ, if_neg (not_lt.2 hm)]
      simp [eff, this]
    | ok new k deps hnew hag hkl h2 h3 =>
      have ek : effServ s n = k := by
        rcases hnew with ⟨m, rfl, hm, rfl⟩ | ⟨rfl, rfl⟩
        · simp only [effServ, if_pos hm, hag, Option.getD_some]
        · by_cases hs : s.numServers = .inf
          · rw [hs] at hag
            simp [agentsToQueue] at hag
          · simp only [effServ, if_neg hs, hag, Option.getD_some]
      have h3' := h3.map (fun x : Agent T => x.id)
      simp only [List.map_append, startServ_ids] at h3'
      have hqs : s.queue.map (·.id) = (s.queue.take k).map (·.id) ++ (s.queue.drop k).map (·.id) := by
        rw [← List.map_append, List.take_append_drop]
      have hnd2 := (List.nodup_append.mp hn).2.1
      rw [hqs, List.append_assoc] at hnd2
      have hn3 := List.nodup_append.mp hnd2
      have e0 : eff c s (.setServers n) x = if x ∈ (s.queue.take k).map (·.id) then
          modLast fun r => { r with start := s.currentT } else id := by
        simp only [eff, ek]
      refine ⟨rfl, ?_, ?_⟩
      · rw [e0]
        cases hc : s.collectData
        · rfl
        simp only [if_true]
        rw [startData_rows s.currentT s.data (s.queue.take k) hn3.1]
        by_cases hx : x ∈ (s.queue.take k).map (·.id)
        · simp only [if_pos hx]
        · simp only [if_neg hx, id]
      · rw [e0]
        by_cases hx : x ∈ (s.queue.take k).map (·.id)
        · exact .inr (.inl ⟨.inl (by rw [hqs]; exact List.mem_append_left _ hx), _, by rw [if_pos hx]⟩)
        · refine .inl ⟨by rw [if_neg hx], ?_⟩
          unfold Here inService
          simp only [h3'.mem_iff, hqs, List.mem_append]
          tauto
  | delay t kb s' h =>
    cases h with
    | none => exact same _ rfl rfl Iff.rfl rfl
    | some a rest deps _ _ _ h4 h2 h3 =>
      refine same _ rfl rfl ?_ rfl
      have p1 := h3.map (fun x : Agent T => x.id)
      have p2 := h4.map (fun x : Agent T => x.id)
      simp only [List.map_cons] at p1 p2
      have p3 := p2.trans p1.symm
      unfold Here inService
      rw [p3.mem_iff]
  | collect b => exact absurd rfl (h3 b)
  | noteFull => exact same _ rfl rfl Iff.rfl rfl
  | noteOpen => exact same _ rfl rfl Iff.rfl rfl
  | clearData => exact absurd rfl h2
  | clear => exact absurd rfl h1
  | handover a arr => exact same _ rfl rfl Iff.rfl rfl

/-- What holds of the two queues. -/
structure BothInv (c : QCfg T) (x : Nat × Nat) (s p : QS T) (m : List Bool) : Prop where
  alike : s.forget = p.forget
  reach : Reach c true (DataOk c) p
  len : m.length = (p.data.rows x).length
  rows : s.data.rows x = marked m (p.data.rows x)
  last : Here x s → m.getLast? = some s.collectData ∨ (m.getLast? = some false ∧ s.data.rows x = [])

theorem Here.forget {x : Nat × Nat} {s p : QS T} (h : s.forget = p.forget) : Here x s ↔ Here x p := by
  have e1 : s.queue = p.queue := by
    have := congrArg QS.queue h
    exact this
  have e2 : s.departures = p.departures := by
    have := congrArg QS.departures h
    exact this
  unfold Here inService
  rw [e1, e2]

theorem BothInv.call {c : QCfg T} {x : Nat × Nat} {s p s' p' : QS T} {m : List Bool} {op : QOp T} (hk : Simple c)
    (hf : Forward c) (h : BothInv c x s p m) (hok : DataOk c p op) (hop : op ≠ .clear) (h1 : op.run c s = .ok s')
    (h2 : op.run c p = .ok p') :
    BothInv c x s' p' (if (p'.data.rows x).length = (p.data.rows x).length then m else m ++ [s.collectData]) := by
  have hi := h.reach.dataInv hk hf (fun _ _ h => h)
  have hbp := h.reach.base hk
  have eA : s.arrivals = p.arrivals := by
    have := congrArg QS.arrivals h.alike
    exact this
  have eD : s.departures = p.departures := by
    have := congrArg QS.departures h.alike
    exact this
  have eT : s.time = p.time := by
    have := congrArg QS.time h.alike
    exact this
  have hbs : QBase s := ⟨by rw [eA]; exact hbp.okA, by rw [eD]; exact hbp.okD, by
    rw [eT, hbp.time]; unfold nextTime; rw [eA, eD]⟩
  have hcd : op ≠ .clearData := by rintro rfl; exact hok
  have hcol : ∀ b, op ≠ .collect b := by rintro b rfl; exact hok
  have hns : (presentIds s).Nodup := by
    have : presentIds s = presentIds p := congrArg presentIds (rfl : s.forget = s.forget) ▸ by
      show presentIds s.forget = presentIds p.forget
      rw [h.alike]
    rw [this]; exact hi.nodup
  obtain ⟨a1, a2, a3⟩ := rows_eff x hns (opOut c s s' op hk hbs h1) hop hcd hcol
  obtain ⟨b1, b2, b3⟩ := rows_eff x hi.nodup (opOut c p p' op hk hbp h2) hop hcd hcol
  have ee : eff c p op x = eff c s op x := by rw [← eff_forget c p, ← h.alike, eff_forget]
  rw [hi.on, if_pos rfl, ee] at b2
  have hal : s'.forget = p'.forget := by
    rcases C116_queue c op (QS.alike_iff.2 h.alike) with ⟨e, g1, -⟩ | ⟨q, q', g1, g2, g3⟩
    · rw [g1] at h1; cases h1
    · rw [g1] at h1; rw [g2] at h2
      cases h1; cases h2
      exact QS.alike_iff.1 g3
  have hre : Reach c true (DataOk c) p' := .step op h.reach hok h2
  rcases a3 with ⟨e1, e2⟩ | ⟨e1, f, e2⟩ | ⟨e1, r, e2⟩
  · rw [e1] at a2 b2
    have a2' : s'.data.rows x = s.data.rows x := by rw [a2]; simp
    have b2' : p'.data.rows x = p.data.rows x := b2
    rw [if_pos (by rw [b2'])]
    exact ⟨hal, hre, by rw [b2']; exact h.len, by rw [a2', b2']; exact h.rows,
      fun hx => by rw [a1, a2']; exact h.last (e2.1 hx)⟩
  · -- the last row of `p` changes
    obtain ⟨R, r, eR⟩ : ∃ R r, p.data.rows x = R ++ [r] := by
      rcases (Here.forget h.alike).1 e1 with g | g
      · obtain ⟨R, r, e, -⟩ := hi.wait x g; exact ⟨R, r, e⟩
      · obtain ⟨R, r, e, -⟩ := hi.serv x g; exact ⟨R, r, e⟩
    rw [e2] at a2 b2
    rw [eR, modLast_snoc] at b2
    rw [if_pos (by rw [b2, eR]; simp)]
    have hl := h.len
    rw [eR, List.length_append, List.length_singleton] at hl
    obtain ⟨m0, b, em⟩ : ∃ m0 b, m = m0 ++ [b] := by
      rcases List.eq_nil_or_concat m with e | ⟨m0, b, e⟩
      · rw [e] at hl; simp at hl
      · exact ⟨m0, b, by rw [e]; simp⟩
    have hl0 : m0.length = R.length := by rw [em] at hl; simpa using hl
    have hrs := h.rows
    rw [em, eR, marked_snoc m0 R b r hl0] at hrs
    have hlast := h.last e1
    rw [em, List.getLast?_concat] at hlast
    have key : s'.data.rows x = marked m (p'.data.rows x) ∧
        (s'.data.rows x = [] ∨ m.getLast? = some s.collectData) := by
      rw [b2, em, marked_snoc m0 R b (f r) hl0, List.getLast?_concat, a2]
      rcases hlast with hb | ⟨hb, hr⟩
      · cases hb
        cases hc : s.collectData
        · rw [hc] at hrs
          simp only [Bool.false_eq_true, if_false] at hrs ⊢
          exact ⟨hrs, .inr trivial⟩
        · rw [hc] at hrs
          simp only [if_true] at hrs ⊢
          rw [hrs, modLast_snoc]
          exact ⟨rfl, .inr trivial⟩
      · cases hb
        rw [hr] at hrs ⊢
        simp only [Bool.false_eq_true, if_false] at hrs ⊢
        rw [← hrs]
        have : (if s.collectData = true then modLast f [] else []) = ([] : List (Row T)) := by
          cases s.collectData <;> rfl
        rw [this]
        exact ⟨rfl, .inl rfl⟩
    refine ⟨hal, hre, by rw [b2, em]; simp [hl0], key.1, fun _ => ?_⟩
    rw [a1]
    rcases key.2 with g | g
    · rcases hlast with hb | ⟨hb, -⟩
      · left; rw [em, List.getLast?_concat]; exact hb
      · right; rw [em, List.getLast?_concat]; exact ⟨hb, g⟩
    · exact .inl g
  · -- a row is added to those of `p`
    rw [e2] at a2 b2
    rw [if_neg (by rw [b2]; simp)]
    refine ⟨hal, hre, by rw [b2]; simp [h.len], ?_, fun _ => ?_⟩
    · rw [b2, marked_snoc m _ _ r h.len, ← h.rows, a2]
      cases s.collectData <;> simp
    · left; rw [List.getLast?_concat, a1]

theorem Both.inv {c : QCfg T} {b : Bool} {x : Nat × Nat} {s p : QS T} {m : List Bool} (hk : Simple c) (hf : Forward c)
    (h : Both c b x s p m) : BothInv c x s p m := by
  induction h with
  | new => exact ⟨rfl, .init, rfl, rfl, by simp [Here, QS.init, inService]⟩
  | call op _ h2 h3 h4 h5 ih => exact ih.call hk hf h2 h3 h4 h5
  | @clear s p m _ ih =>
    refine ⟨?_, .step .clear ih.reach trivial rfl, ?_, ?_, ?_⟩
    · rw [← Verif.clear_forget, ih.alike, Verif.clear_forget]
    · rw [clear_simple c p hk]; rfl
    · rw [clear_simple c s hk]; rfl
    · rw [clear_simple c s hk]; simp [Here, inService]
  | @clearData s p m _ ih =>
    refine ⟨ih.alike, ih.reach, by simpa using ih.len, (marked_false m _).symm, fun hx => ?_⟩
    right
    refine ⟨?_, rfl⟩
    rw [List.getLast?_map]
    rcases ih.last hx with g | ⟨g, -⟩ <;> rw [g] <;> rfl
  | @switch s p m on _ h2 ih =>
    refine ⟨ih.alike, ih.reach, ih.len, ih.rows, fun hx => ?_⟩
    have hx' : Here x s := hx
    rcases h2 with rfl | h2 | h2
    · exact ih.last hx'
    · exact absurd hx' h2
    · right
      refine ⟨?_, h2⟩
      rcases ih.last hx' with g | ⟨g, -⟩
      · cases hc : s.collectData
        · rw [hc] at g; exact g
        · exfalso
          rw [hc] at g
          have hr := ih.rows
          rw [h2] at hr
          have hl := ih.len
          rcases List.eq_nil_or_concat m with e | ⟨m0, b, e⟩
          · rw [e] at g; simp at g
          · subst e
            rw [List.concat_eq_append, List.getLast?_concat] at g
            cases g
            rcases List.eq_nil_or_concat (p.data.rows x) with e | ⟨R, r, e⟩
            · rw [e] at hl; simp at hl
            · rw [List.concat_eq_append] at hr
              rw [e, List.concat_eq_append, marked_snoc m0 R true r (by rw [e] at hl; simpa using hl)] at hr
              simp at hr
      · exact g

/-- **C117.** If data collection is switched on and off and data are cleared at any times, but collection is not
switched while agent `x` is in the queue and has rows in `data`, then the rows of `x` are those which a queue that
collects data throughout has for the visits of `x` that began while data were collected and have not been cleared
since; and the two queues differ in nothing else. -/
theorem C117_rows {c : QCfg T} (hk : Simple c) (hf : Forward c) {b : Bool} {x : Nat × Nat} {s p : QS T} {m : List Bool}
    (h : Both c b x s p m) :
    m.length = (p.data.rows x).length ∧ s.data.rows x = marked m (p.data.rows x) ∧ s.Alike p :=
  have hi := h.inv hk hf
  ⟨hi.len, hi.rows, QS.alike_iff.2 hi.alike⟩

/-- **C117.** So the rows of an agent that has left have `arrival <= start <= departure` (or are those of arrivals
turned away by a LossQueue), as if collection had not been switched. -/
theorem C117_consistent {c : QCfg T} (hk : Simple c) (hf : Forward c) {b : Bool} {x : Nat × Nat} {s p : QS T}
    {m : List Bool} (h : Both c b x s p m) (h1 : x ∉ s.queue.map (·.id)) (h2 : x ∉ (inService s).map (·.id)) :
    ∀ r ∈ s.data.rows x, (r.arr ≤ r.start ∧ r.start ≤ r.dep) ∨ (c.kind = .loss ∧ r.start = 0 ∧ r.dep = 0) := by
  have hi := h.inv hk hf
  have hd := hi.reach.dataInv hk hf (fun _ _ h => h)
  intro r hr
  rw [hi.rows] at hr
  have hn : ¬ Here x p := by
    rw [← Here.forget hi.alike]
    exact fun g => g.elim h1 h2
  exact hd.rest x (fun g => hn (.inl g)) (fun g => hn (.inr g)) r ((marked_sublist m _).subset hr)

instance (c : QCfg T) (s : QS T) (op : QOp T) : Decidable (DataOk c s op) := by
  cases op with
  | delay t k =>
    cases t
    · exact .isTrue trivial
    · exact inferInstanceAs (Decidable (_ ≤ _))
  | handover a => exact inferInstanceAs (Decidable (_ ∧ _ ∧ _))
  | collect b => exact .isFalse id
  | clearData => exact .isFalse id
  | _ => exact .isTrue trivial

instance (x : Nat × Nat) (s : QS T) : Decidable (Here x s) := inferInstanceAs (Decidable (_ ∨ _))

/-- Do the same with both queues as far as `Both` allows it. -/
def bothRun (c : QCfg T) (x : Nat × Nat) : List (QOp T) → QS T × QS T × List Bool → Option (QS T × QS T × List Bool)
  | [], w => some w
  | .clear :: ops, (s, p, _) => bothRun c x ops (Verif.clear c s, Verif.clear c p, [])
  | .clearData :: ops, (s, p, m) => bothRun c x ops ({ s with data := [] }, p, m.map fun _ => false)
  | .collect on :: ops, (s, p, m) =>
    if on = s.collectData ∨ ¬ Here x s ∨ s.data.rows x = [] then bothRun c x ops ({ s with collectData := on }, p, m)
    else none
  | op :: ops, (s, p, m) =>
    if DataOk c p op then
      match op.run c s, op.run c p with
      | .ok s', .ok p' => bothRun c x ops
          (s', p', if (p'.data.rows x).length = (p.data.rows x).length then m else m ++ [s.collectData])
      | _, _ => none
    else none

theorem bothRun_both {c : QCfg T} {b : Bool} {x : Nat × Nat} (ops : List (QOp T)) {s p : QS T} {m : List Bool}
    (h : Both c b x s p m) {w : QS T × QS T × List Bool} (hw : bothRun c x ops (s, p, m) = some w) :
    Both c b x w.1 w.2.1 w.2.2 := by
  induction ops generalizing s p m with
  | nil =>
    simp only [bothRun, Option.some.injEq] at hw
    subst hw
    exact h
  | cons op ops ih =>
    have plain : op ≠ .clear → (if DataOk c p op then
        match op.run c s, op.run c p with
        | .ok s', .ok p' => bothRun c x ops
            (s', p', if (p'.data.rows x).length = (p.data.rows x).length then m else m ++ [s.collectData])
        | _, _ => none
      else none) = some w → Both c b x w.1 w.2.1 w.2.2 := by
      intro hc hw
      by_cases hd : DataOk c p op
      · rw [if_pos hd] at hw
        cases h1 : op.run c s with
        | error e => rw [h1] at hw; cases hw
        | ok s' =>
          cases h2 : op.run c p with
          | error e => rw [h1, h2] at hw; cases hw
          | ok p' =>
            rw [h1, h2] at hw
            exact ih (h.call op hd hc h1 h2) hw
      · rw [if_neg hd] at hw; cases hw
    cases op with
    | clear => exact ih h.clear hw
    | clearData => exact ih h.clearData hw
    | collect on =>
      simp only [bothRun] at hw
      by_cases hd : on = s.collectData ∨ ¬ Here x s ∨ s.data.rows x = []
      · rw [if_pos hd] at hw
        exact ih (h.switch on hd) hw
      · rw [if_neg hd] at hw; cases hw
    | next => exact plain (by simp) hw
    | setActive => exact plain (by simp) hw
    | setInactive => exact plain (by simp) hw
    | setServers n => exact plain (by simp) hw
    | delay t k => exact plain (by simp) hw
    | note => exact plain (by simp) hw
    | handover a => exact plain (by simp) hw

/-- An agent that comes to the demonstration queue again and again. -/
abbrev caller (t : ℕ∞) : QOp ℕ∞ := .handover ⟨(3, 0), t, 0, .plain⟩

/-- Four visits of one agent: during the first no data are collected, the second is recorded and cleared, the third
is recorded, during the fourth no data are collected. -/
abbrev fourVisits : List (QOp ℕ∞) :=
  [caller 1, .next, .next, .collect true, caller 6, .next, .next, .clearData, caller 11, .next, .next, .collect false,
    caller 21, .next, .next]

example : ∃ s p, Both demo false (3, 0) s p [false, false, true, false] ∧ Simple demo ∧ Forward demo ∧
    s.data.rows (3, 0) = [⟨11, 11, 14, 0, 1⟩] ∧
    p.data.rows (3, 0) = [⟨1, 1, 4, 0, 1⟩, ⟨6, 6, 9, 0, 1⟩, ⟨11, 11, 14, 0, 1⟩, ⟨21, 21, 24, 0, 1⟩] := by
  obtain ⟨w, hw⟩ : ∃ w, bothRun demo (3, 0) fourVisits (QS.init demo false, QS.init demo true, []) = some w :=
    Option.isSome_iff_exists.1 (by decide +kernel)
  have e1 : (bothRun demo (3, 0) fourVisits (QS.init demo false, QS.init demo true, [])).map
      (fun w => (w.1.data.rows (3, 0), w.2.1.data.rows (3, 0), w.2.2)) = some ([⟨11, 11, 14, 0, 1⟩],
        [⟨1, 1, 4, 0, 1⟩, ⟨6, 6, 9, 0, 1⟩, ⟨11, 11, 14, 0, 1⟩, ⟨21, 21, 24, 0, 1⟩],
        [false, false, true, false]) := by decide +kernel
  rw [hw] at e1
  simp only [Option.map_some, Option.some.injEq, Prod.mk.injEq] at e1
  obtain ⟨h1, h2, h3⟩ := e1
  refine ⟨w.1, w.2.1, ?_, .inl rfl, ⟨fun _ t => le_self_add, fun _ t => le_self_add⟩, h1, h2⟩
  rw [← h3]
  exact bothRun_both fourVisits .new hw

/-- **C117, counterexample for switching off.** If collection is stopped while an agent with a row is in service, the
row never gets its departure: it departs at 4 but the row says 0, before its arrival at 1. -/
theorem C117_stopped_during_visit :
    Reach demo true anyOp (resOps demo true [caller 1, .next, .collect false, .next]) ∧
    inService (resOps demo true [caller 1, .next, .collect false, .next]) = [] ∧
    (resOps demo true [caller 1, .next, .collect false, .next]).numDepartures = 1 ∧
    (resOps demo true [caller 1, .next, .collect false, .next]).data.rows (3, 0) = [⟨1, 1, 0, 0, 1⟩] := by
  refine ⟨reachOps _ _ _ (by decide +kernel), ?_, ?_, ?_⟩ <;> decide +kernel

/-- **C117, counterexample for switching on.** If collection is started while an agent is in service that has rows from
an earlier visit, its departure is entered in the last of these: the agent was there from 1 until 4 and from 6 until
9, the only row says from 1 until 9. -/
theorem C117_started_during_visit :
    Reach demo true anyOp (resOps demo true [caller 1, .next, .next]) ∧
    (resOps demo true [caller 1, .next, .next]).data.rows (3, 0) = [⟨1, 1, 4, 0, 1⟩] ∧
    Reach demo true anyOp
      (resOps demo true [caller 1, .next, .next, .collect false, caller 6, .next, .collect true, .next]) ∧
    inService (resOps demo true [caller 1, .next, .next, .collect false, caller 6, .next, .collect true, .next]) = [] ∧
    (resOps demo true [caller 1, .next, .next, .collect false, caller 6, .next, .collect true, .next]).numDepartures = 2 ∧
    (resOps demo true [caller 1, .next, .next, .collect false, caller 6, .next, .collect true, .next]).data.rows (3, 0) =
      [⟨1, 1, 9, 0, 1⟩] := by
  refine ⟨reachOps _ _ _ (by decide +kernel), ?_, reachOps _ _ _ (by decide +kernel), ?_, ?_, ?_⟩ <;> decide +kernel

end Verif.QueueSpec
