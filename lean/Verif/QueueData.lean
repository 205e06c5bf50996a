import Verif.QueueInv3

/-! # Consistency of the recorded rows (proof support) -/

set_option linter.unusedSectionVars false
set_option linter.unusedSimpArgs false
set_option linter.unusedVariables false

namespace Verif

variable {T : Type*} [LinearOrder T] [OrderTop T] [Zero T]

/-- Ids of the agents that are scheduled, waiting or in service. -/
def presentIds (s : QS T) : List (Nat × Nat) :=
  (agents s.arrivals).map (·.id) ++ (s.queue.map (·.id) ++ (agents s.departures).map (·.id))

/-- A row of a finished visit: `arrival <= start <= departure`; or, at a LossQueue, the row of a blocked
arrival. -/
def Final (c : QCfg T) (r : Row T) : Prop :=
  (r.arr ≤ r.start ∧ r.start ≤ r.dep) ∨ (c.kind = .loss ∧ r.start = 0 ∧ r.dep = 0)

/-- An agent is in one place at a time, and ids of agents created here were given out before. -/
def DataOk (c : QCfg T) (s : QS T) : QOp T → Prop
  | .delay (some t) _ => s.currentT ≤ t
  | .handover a => s.currentT ≤ a.time ∧ a.id ∉ presentIds s ∧ (a.id.1 = c.edge.idx → a.id.2 < s.oArrivals)
  | .collect _ => False
  | .clearData => False
  | _ => True

structure DataInv (c : QCfg T) (s : QS T) : Prop where
  on : s.collectData = true
  nodup : (presentIds s).Nodup
  ids : ∀ x ∈ presentIds s, x.1 = c.edge.idx → x.2 < s.oArrivals
  serv : ∀ x ∈ (agents s.departures).map (·.id), ∃ R0 r, s.data.rows x = R0 ++ [r] ∧
    (∀ q ∈ R0, Final c q) ∧ r.arr ≤ r.start ∧ r.start ≤ s.currentT
  wait : ∀ x ∈ s.queue.map (·.id), ∃ R0 r, s.data.rows x = R0 ++ [r] ∧
    (∀ q ∈ R0, Final c q) ∧ r.arr ≤ s.currentT
  rest : ∀ x, x ∉ s.queue.map (·.id) → x ∉ (agents s.departures).map (·.id) →
    ∀ q ∈ s.data.rows x, Final c q

theorem startData_rows (t : T) (d : Data T) (l : List (Agent T)) (hn : (l.map (·.id)).Nodup)
    (y : Nat × Nat) :
    (startData t d l).rows y = if y ∈ l.map (·.id) then
      modLast (fun r => { r with start := t }) (d.rows y) else d.rows y := by
  induction l generalizing d with
  | nil => rfl
  | cons a l ih =>
    simp only [List.map_cons, List.nodup_cons] at hn
    simp only [startData]
    rw [ih _ hn.2, Data.rows_modify]
    by_cases h1 : y = a.id
    · subst h1
      simp [hn.1]
    · simp [h1]

theorem DataInv.extIds {c : QCfg T} {s s' : QS T} {t : T} {rest : List (Slot T)} {a : Agent T}
    (h : DataInv c s) (hp : (agents s.arrivals).Perm (a :: agents rest))
    (hx : ExtSpec c s s' t rest) {m : List (Nat × Nat)} {m' : List (Nat × Nat)}
    (hm : s.queue.map (·.id) ++ (agents s.departures).map (·.id) = m)
    (hm' : m'.Perm (a.id :: m) ∨ m' = m) :
    ((agents s'.arrivals).map (·.id) ++ m').Nodup ∧
      ∀ x ∈ (agents s'.arrivals).map (·.id) ++ m', x.1 = c.edge.idx → x.2 < s'.oArrivals := by
  obtain ⟨ext, e1, e2, e3, e4⟩ := hx
  have hpres : (presentIds s).Perm (a.id :: ((agents rest).map (·.id) ++ m)) := by
    unfold presentIds
    rw [hm]
    have := (hp.map (fun x : Agent T => x.id)).append_right m
    simpa using this
  have hnd := hpres.nodup_iff.mp h.nodup
  have hids : ∀ x ∈ a.id :: ((agents rest).map (·.id) ++ m), x.1 = c.edge.idx → x.2 < s.oArrivals :=
    fun x hx => h.ids x (hpres.mem_iff.mpr hx)
  have e2' := (e2.map (fun x : Agent T => x.id)).append_right m'
  have base : ((agents rest).map (·.id) ++ m').Nodup ∧
      ∀ x ∈ (agents rest).map (·.id) ++ m', x.1 = c.edge.idx → x.2 < s.oArrivals := by
    rcases hm' with hm' | rfl
    · have hpp : ((agents rest).map (·.id) ++ m').Perm (a.id :: ((agents rest).map (·.id) ++ m)) :=
        (List.Perm.append_left _ hm').trans List.perm_middle
      exact ⟨hpp.nodup_iff.mpr hnd, fun x hx => hids x (hpp.mem_iff.mp hx)⟩
    · exact ⟨(List.nodup_cons.mp hnd).2, fun x hx => hids x (by simp only [List.mem_cons]; exact .inr hx)⟩
  rcases e1.shape with rfl | ⟨b, rfl, hb, -⟩
  · simp only [List.nil_append, List.length_nil, Nat.add_zero] at e2' e3
    refine ⟨e2'.nodup_iff.mpr base.1, fun x hx hi => ?_⟩
    rw [e3]; exact base.2 x (e2'.mem_iff.mp hx) hi
  · simp only [List.map_append, List.map_cons, List.map_nil, List.append_assoc,
      List.singleton_append, List.cons_append, List.nil_append, List.length_cons, List.length_nil] at e2' e3
    constructor
    · rw [e2'.nodup_iff, List.nodup_cons]
      refine ⟨fun hmem => ?_, base.1⟩
      have := base.2 _ hmem (by rw [hb])
      rw [hb] at this; simp at this
    · intro x hx hi
      rw [e3]
      rcases List.mem_cons.mp (e2'.mem_iff.mp hx) with rfl | hx
      · rw [hb]; simp
      · have := base.2 x hx hi; omega

theorem DataInv.step {c : QCfg T} {s s' : QS T} {op : QOp T} (hk : Simple c) (hf : Forward c)
    (hb : QBase s) (hq : QInv s) (hcl : ClockInv s) (h : DataInv c s) (hok : DataOk c s op)
    (ho : OpOut c s op s') : DataInv c s' := by
  have hon := h.on
  cases ho with
  | ev s' r _ h1 =>
    cases h1 with
    | idle _ _ h2 => rw [h2]; exact h
    | dep a hlt h2 _ =>
      have hnow : s.currentT ≤ a.time := by
        rw [h2.time_eq]; exact (hcl.nextTime_ge hb).trans (min_le_right _ _)
      obtain ⟨deps, g1, g2, g3⟩ := h2.served
      have g1' : ((agents s.departures).map (·.id)).Perm (a.id :: (agents deps).map (·.id)) := by
        simpa using g1.map (fun x : Agent T => x.id)
      have hpres : (presentIds s).Perm (a.id :: ((agents s.arrivals).map (·.id) ++
          (s.queue.map (·.id) ++ (agents deps).map (·.id)))) := by
        unfold presentIds
        refine (List.Perm.append_left _ (List.Perm.append_left _ g1')).trans ?_
        refine (List.Perm.append_left _ List.perm_middle).trans ?_
        exact List.perm_middle
      have hnd := List.nodup_cons.mp (hpres.nodup_iff.mp h.nodup)
      have hids : ∀ x ∈ (agents s.arrivals).map (·.id) ++
          (s.queue.map (·.id) ++ (agents deps).map (·.id)), x.1 = c.edge.idx → x.2 < s.oArrivals :=
        fun x hx => h.ids x (hpres.mem_iff.mpr (List.mem_cons_of_mem _ hx))
      have haq : a.id ∉ s.queue.map (·.id) := fun hm => hnd.1 (by simp only [List.mem_append]; tauto)
      have had : a.id ∉ (agents deps).map (·.id) := fun hm => hnd.1 (by simp only [List.mem_append]; tauto)
      -- the row of the departing agent
      obtain ⟨Ra, ra, era, fRa, ra1, ra2⟩ := h.serv a.id (g1'.mem_iff.mpr (by simp))
      have hafin : ∀ q ∈ modLast (fun r => { r with dep := a.time }) (s.data.rows a.id), Final c q := by
        rw [era, modLast_snoc]
        intro q hq
        rcases List.mem_append.mp hq with hq | hq
        · exact fRa q hq
        · simp at hq; subst hq; exact .inl ⟨ra1, ra2.trans hnow⟩
      rcases g3 with ⟨b, rest, k1, -, k3, -, k5, -, k7⟩ | ⟨-, k2, -, k4, -, k6⟩
      · rw [hon, if_pos rfl] at k7
        have hb' : b.id ≠ a.id := fun hm => haq (by rw [k1]; simp [hm])
        have k5' : ((agents s'.departures).map (·.id)).Perm (b.id :: (agents deps).map (·.id)) := by
          simpa using k5.map (fun x : Agent T => x.id)
        have hpres' : (presentIds s').Perm ((agents s.arrivals).map (·.id) ++
          (s.queue.map (·.id) ++ (agents deps).map (·.id))) := by
          unfold presentIds
          rw [h2.arrivals, k1, k3]
          refine List.Perm.append_left _ ?_
          refine (List.Perm.append_left _ k5').trans ?_
          exact List.perm_middle
        have hrows : ∀ x, x ≠ a.id → x ≠ b.id → s'.data.rows x = s.data.rows x := by
          intro x h1 h2
          rw [k7, Data.rows_modify, if_neg h2, Data.rows_modify, if_neg h1]
        have hrb : s'.data.rows b.id = modLast (fun r => { r with start := a.time }) (s.data.rows b.id) := by
          rw [k7, Data.rows_modify, if_pos rfl, Data.rows_modify, if_neg hb']
        have hra : s'.data.rows a.id = modLast (fun r => { r with dep := a.time }) (s.data.rows a.id) := by
          rw [k7, Data.rows_modify, if_neg (Ne.symm hb'), Data.rows_modify, if_pos rfl]
        have hbnd : b.id ∉ rest.map (·.id) ∧ b.id ∉ (agents deps).map (·.id) := by
          have hn2 := hnd.2
          rw [k1] at hn2
          simp only [List.map_cons, List.cons_append] at hn2
          have hn3 := (List.nodup_append.mp hn2).2.1
          have := (List.nodup_cons.mp hn3).1
          simp only [List.mem_append, not_or] at this
          exact this
        refine ⟨by rw [h2.collectData]; exact hon, hpres'.nodup_iff.mpr hnd.2, ?_, ?_, ?_, ?_⟩
        · intro x hx; rw [h2.oArrivals]; exact hids x (hpres'.mem_iff.mp hx)
        · intro x hx
          rw [h2.currentT]
          rcases List.mem_cons.mp (k5'.mem_iff.mp hx) with rfl | hx
          · obtain ⟨R0, r, e1, e2, e3⟩ := h.wait b.id (by rw [k1]; simp)
            rw [hrb, e1, modLast_snoc]
            exact ⟨R0, _, rfl, e2, e3.trans hnow, le_rfl⟩
          · obtain ⟨R0, r, e1, e2, e3, e4⟩ := h.serv x (g1'.mem_iff.mpr (by simp only [List.mem_cons]; exact .inr hx))
            rw [hrows x (fun hm => had (hm ▸ hx)) (fun hm => hbnd.2 (hm ▸ hx))]
            exact ⟨R0, r, e1, e2, e3, e4.trans hnow⟩
        · intro x hx
          rw [k3] at hx
          rw [h2.currentT]
          have hxq : x ∈ s.queue.map (·.id) := by
            rw [k1]; simp only [List.map_cons, List.mem_cons]; exact .inr hx
          obtain ⟨R0, r, e1, e2, e3⟩ := h.wait x hxq
          rw [hrows x (fun hm => haq (hm ▸ hxq)) (fun hm => hbnd.1 (hm ▸ hx))]
          exact ⟨R0, r, e1, e2, e3.trans hnow⟩
        · intro x hx1 hx2
          have hx2' : x ∉ b.id :: (agents deps).map (·.id) := fun hm => hx2 (k5'.mem_iff.mpr hm)
          simp only [List.mem_cons, not_or] at hx2'
          by_cases hxa : x = a.id
          · subst hxa; rw [hra]; exact hafin
          · rw [hrows x hxa hx2'.1]
            refine h.rest x ?_ ?_
            · rw [k1]; rw [k3] at hx1
              simp only [List.map_cons, List.mem_cons, not_or]; exact ⟨hx2'.1, hx1⟩
            · intro hm
              rcases List.mem_cons.mp (g1'.mem_iff.mp hm) with hm | hm
              · exact hxa hm
              · exact hx2'.2 hm
      · rw [hon, if_pos rfl] at k6
        have hpres' : presentIds s' = (agents s.arrivals).map (·.id) ++
          (s.queue.map (·.id) ++ (agents deps).map (·.id)) := by
          unfold presentIds
          rw [h2.arrivals, k2, k4]
        have hrows : ∀ x, x ≠ a.id → s'.data.rows x = s.data.rows x := by
          intro x h1
          rw [k6, Data.rows_modify, if_neg h1]
        have hra : s'.data.rows a.id = modLast (fun r => { r with dep := a.time }) (s.data.rows a.id) := by
          rw [k6, Data.rows_modify, if_pos rfl]
        refine ⟨by rw [h2.collectData]; exact hon, by rw [hpres']; exact hnd.2, ?_, ?_, ?_, ?_⟩
        · intro x hx; rw [h2.oArrivals]; rw [hpres'] at hx; exact hids x hx
        · intro x hx
          rw [k4] at hx
          rw [h2.currentT]
          obtain ⟨R0, r, e1, e2, e3, e4⟩ := h.serv x (g1'.mem_iff.mpr (by simp only [List.mem_cons]; exact .inr hx))
          rw [hrows x (fun hm => had (hm ▸ hx))]
          exact ⟨R0, r, e1, e2, e3, e4.trans hnow⟩
        · intro x hx
          rw [k2] at hx
          rw [h2.currentT]
          obtain ⟨R0, r, e1, e2, e3⟩ := h.wait x hx
          rw [hrows x (fun hm => haq (hm ▸ hx))]
          exact ⟨R0, r, e1, e2, e3.trans hnow⟩
        · intro x hx1 hx2
          rw [k4] at hx2
          rw [k2] at hx1
          by_cases hxa : x = a.id
          · subst hxa; rw [hra]; exact hafin
          · rw [hrows x hxa]
            refine h.rest x hx1 ?_
            intro hm
            rcases List.mem_cons.mp (g1'.mem_iff.mp hm) with hm | hm
            · exact hxa hm
            · exact hx2 hm
    | arr a rest hle _ _ h2 _ =>
      have hnow : s.currentT ≤ a.time := by
        rw [h2.time_eq]; exact (hcl.nextTime_ge hb).trans (min_le_left _ _)
      have hnd := h.nodup
      have hpres : (presentIds s).Perm (a.id :: ((agents rest).map (·.id) ++
          (s.queue.map (·.id) ++ (agents s.departures).map (·.id)))) := by
        unfold presentIds
        have := (h2.perm.map (fun x : Agent T => x.id)).append_right
          (s.queue.map (·.id) ++ (agents s.departures).map (·.id))
        simpa using this
      have hna := (List.nodup_cons.mp (hpres.nodup_iff.mp hnd)).1
      simp only [List.mem_append, not_or] at hna
      have hfin := h.rest a.id hna.2.1 hna.2.2
      rcases h2.served with ⟨-, k2, -, k4, -, k6⟩ | ⟨-, k2, -, k4, -, k6⟩
      · rw [hon, if_pos rfl] at k6
        have k4' : ((agents s'.departures).map (·.id)).Perm (a.id :: (agents s.departures).map (·.id)) := by
          simpa using k4.map (fun x : Agent T => x.id)
        have hI := h.extIds h2.perm h2.ext rfl (m' := s'.queue.map (·.id) ++ (agents s'.departures).map (·.id))
          (.inl (by rw [k2]; exact (List.Perm.append_left _ k4').trans List.perm_middle))
        have hrows : ∀ x, x ≠ a.id → s'.data.rows x = s.data.rows x := by
          intro x h1
          rw [k6, Data.rows_modify, if_neg h1, Data.rows_append, if_neg h1]
        have hra : s'.data.rows a.id = s.data.rows a.id ++
            [⟨a.time, a.time, 0, s.queue.length, s.numSystem + 1⟩] := by
          rw [k6, Data.rows_modify, if_pos rfl, Data.rows_append, if_pos rfl, modLast_snoc]
        refine ⟨by rw [h2.collectData]; exact hon, hI.1, hI.2, ?_, ?_, ?_⟩
        · intro x hx
          rw [h2.currentT]
          by_cases hxa : x = a.id
          · subst hxa; rw [hra]; exact ⟨_, _, rfl, hfin, le_rfl, le_rfl⟩
          · rcases List.mem_cons.mp (k4'.mem_iff.mp hx) with hx | hx
            · exact absurd hx hxa
            · obtain ⟨R0, r, e1, e2, e3, e4⟩ := h.serv x hx
              rw [hrows x hxa]
              exact ⟨R0, r, e1, e2, e3, e4.trans hnow⟩
        · intro x hx
          rw [k2] at hx
          rw [h2.currentT]
          obtain ⟨R0, r, e1, e2, e3⟩ := h.wait x hx
          rw [hrows x (fun hm => hna.2.1 (hm ▸ hx))]
          exact ⟨R0, r, e1, e2, e3.trans hnow⟩
        · intro x hx1 hx2
          have hx2' : x ∉ a.id :: (agents s.departures).map (·.id) := fun hm => hx2 (k4'.mem_iff.mpr hm)
          simp only [List.mem_cons, not_or] at hx2'
          rw [k2] at hx1
          rw [hrows x hx2'.1]
          exact h.rest x hx1 hx2'.2
      · rw [hon, if_pos rfl] at k6
        have hI := h.extIds h2.perm h2.ext rfl (m' := s'.queue.map (·.id) ++ (agents s'.departures).map (·.id))
          (.inl (by
            rw [k2, k4]
            simp only [List.map_append, List.map_cons, List.map_nil, List.append_assoc,
              List.singleton_append]
            exact List.perm_middle))
        have hrows : ∀ x, x ≠ a.id → s'.data.rows x = s.data.rows x := by
          intro x h1
          rw [k6, Data.rows_append, if_neg h1]
        have hra : s'.data.rows a.id = s.data.rows a.id ++
            [⟨a.time, 0, 0, s.queue.length + 1, s.numSystem + 1⟩] := by
          rw [k6, Data.rows_append, if_pos rfl]
        refine ⟨by rw [h2.collectData]; exact hon, hI.1, hI.2, ?_, ?_, ?_⟩
        · intro x hx
          rw [k4] at hx
          rw [h2.currentT]
          obtain ⟨R0, r, e1, e2, e3, e4⟩ := h.serv x hx
          rw [hrows x (fun hm => hna.2.2 (hm ▸ hx))]
          exact ⟨R0, r, e1, e2, e3, e4.trans hnow⟩
        · intro x hx
          rw [k2] at hx
          rw [h2.currentT]
          by_cases hxa : x = a.id
          · subst hxa; rw [hra]; exact ⟨_, _, rfl, hfin, le_rfl⟩
          · have hx' : x ∈ s.queue.map (·.id) := by simpa [hxa] using hx
            obtain ⟨R0, r, e1, e2, e3⟩ := h.wait x hx'
            rw [hrows x hxa]
            exact ⟨R0, r, e1, e2, e3.trans hnow⟩
        · intro x hx1 hx2
          rw [k4] at hx2
          rw [k2] at hx1
          simp only [List.map_append, List.map_cons, List.map_nil, List.mem_append, List.mem_singleton,
            not_or] at hx1
          rw [hrows x hx1.2]
          exact h.rest x hx1.1 hx2
    | block a rest hle _ hl _ h2 _ =>
      have hnow : s.currentT ≤ a.time := by
        rw [h2.time_eq]; exact (hcl.nextTime_ge hb).trans (min_le_left _ _)
      have hpres : (presentIds s).Perm (a.id :: ((agents rest).map (·.id) ++
          (s.queue.map (·.id) ++ (agents s.departures).map (·.id)))) := by
        unfold presentIds
        have := (h2.perm.map (fun x : Agent T => x.id)).append_right
          (s.queue.map (·.id) ++ (agents s.departures).map (·.id))
        simpa using this
      have hna := (List.nodup_cons.mp (hpres.nodup_iff.mp h.nodup)).1
      simp only [List.mem_append, not_or] at hna
      have hfin := h.rest a.id hna.2.1 hna.2.2
      have k6 := h2.data
      rw [hon, if_pos rfl] at k6
      have hI := h.extIds h2.perm h2.ext rfl (m' := s'.queue.map (·.id) ++ (agents s'.departures).map (·.id))
        (.inr (by rw [h2.queue, h2.departures]))
      have hrows : ∀ x, x ≠ a.id → s'.data.rows x = s.data.rows x := by
        intro x h1
        rw [k6, Data.rows_append, if_neg h1]
      have hra : s'.data.rows a.id = s.data.rows a.id ++
          [⟨a.time, 0, 0, s.queue.length, s.numSystem⟩] := by
        rw [k6, Data.rows_append, if_pos rfl]
      refine ⟨by rw [h2.collectData]; exact hon, hI.1, hI.2, ?_, ?_, ?_⟩
      · intro x hx
        rw [h2.departures] at hx
        rw [h2.currentT]
        obtain ⟨R0, r, e1, e2, e3, e4⟩ := h.serv x hx
        rw [hrows x (fun hm => hna.2.2 (hm ▸ hx))]
        exact ⟨R0, r, e1, e2, e3, e4.trans hnow⟩
      · intro x hx
        rw [h2.queue] at hx
        rw [h2.currentT]
        obtain ⟨R0, r, e1, e2, e3⟩ := h.wait x hx
        rw [hrows x (fun hm => hna.2.1 (hm ▸ hx))]
        exact ⟨R0, r, e1, e2, e3.trans hnow⟩
      · intro x hx1 hx2
        rw [h2.departures] at hx2
        rw [h2.queue] at hx1
        by_cases hxa : x = a.id
        · subst hxa; rw [hra]
          intro q hq
          rcases List.mem_append.mp hq with hq | hq
          · exact hfin q hq
          · simp at hq; subst hq; exact .inr ⟨hl, rfl, rfl⟩
        · rw [hrows x hxa]; exact h.rest x hx1 hx2
  | already => exact h
  | act arr ext ν act calls ha h1 h2 h3 =>
    have e2' := (h3.map (fun x : Agent T => x.id)).append_right
      (s.queue.map (·.id) ++ (agents s.departures).map (·.id))
    have hpe : presentIds s = (agents s.arrivals).map (·.id) ++
      (s.queue.map (·.id) ++ (agents s.departures).map (·.id)) := rfl
    have hI : ((agents arr).map (·.id) ++ (s.queue.map (·.id) ++ (agents s.departures).map (·.id))).Nodup ∧
        ∀ x ∈ (agents arr).map (·.id) ++ (s.queue.map (·.id) ++ (agents s.departures).map (·.id)),
          x.1 = c.edge.idx → x.2 < s.oArrivals + ext.length := by
      rcases h1.shape with rfl | ⟨b, rfl, hb, -⟩
      · simp only [List.nil_append] at e2'
        exact ⟨e2'.nodup_iff.mpr h.nodup, fun x hx => h.ids x (e2'.mem_iff.mp hx)⟩
      · simp only [List.map_append, List.map_cons, List.map_nil, List.append_assoc,
          List.singleton_append, List.cons_append, List.nil_append] at e2'
        rw [← hpe] at e2'
        constructor
        · rw [e2'.nodup_iff, List.nodup_cons]
          refine ⟨fun hmem => ?_, h.nodup⟩
          have := h.ids _ hmem (by rw [hb])
          rw [hb] at this; simp at this
        · intro x hx hi
          rcases List.mem_cons.mp (e2'.mem_iff.mp hx) with rfl | hx
          · rw [hb]; simp
          · have := h.ids x hx hi; simp; omega
    exact ⟨hon, hI.1, hI.2, h.serv, h.wait, h.rest⟩
  | inact => exact ⟨hon, h.nodup, h.ids, h.serv, h.wait, h.rest⟩
  | srv n s' r h1 =>
    cases h1 with
    | typ => exact h
    | val => exact h
    | ok new k deps hnew hag hkl h2 h3 =>
      have h3' := h3.map (fun x : Agent T => x.id)
      simp only [List.map_append, startServ_ids] at h3'
      have hqs : s.queue.map (·.id) = (s.queue.take k).map (·.id) ++ (s.queue.drop k).map (·.id) := by
        rw [← List.map_append, List.take_append_drop]
      have hqd : (s.queue.map (·.id) ++ (agents s.departures).map (·.id)).Perm
          ((s.queue.drop k).map (·.id) ++ (agents deps).map (·.id)) := by
        rw [hqs]
        refine List.Perm.trans ?_ (List.Perm.append_left _ h3'.symm)
        rw [← List.append_assoc]
        exact List.Perm.append_right _ List.perm_append_comm
      have hpres : (presentIds s).Perm ((agents s.arrivals).map (·.id) ++
          ((s.queue.drop k).map (·.id) ++ (agents deps).map (·.id))) := List.Perm.append_left _ hqd
      have hnd2 := (List.nodup_append.mp h.nodup).2.1
      rw [hqs, List.append_assoc] at hnd2
      have hn3 := List.nodup_append.mp hnd2
      have hrows := startData_rows s.currentT s.data (s.queue.take k) hn3.1
      have hdis : ∀ x, x ∈ (s.queue.take k).map (·.id) →
          x ∉ (s.queue.drop k).map (·.id) ∧ x ∉ (agents s.departures).map (·.id) := by
        intro x hx
        constructor
        · intro hm; exact hn3.2.2 x hx x (List.mem_append.mpr (.inl hm)) rfl
        · intro hm; exact hn3.2.2 x hx x (List.mem_append.mpr (.inr hm)) rfl
      refine ⟨hon, hpres.nodup_iff.mp h.nodup, fun x hx => h.ids x (hpres.mem_iff.mpr hx), ?_, ?_, ?_⟩
      · intro x hx
        simp only [hon, if_true]
        rw [hrows]
        rcases List.mem_append.mp (h3'.mem_iff.mp hx) with hx | hx
        · rw [if_pos hx]
          obtain ⟨R0, r, e1, e2, e3⟩ := h.wait x (by rw [hqs]; exact List.mem_append.mpr (.inl hx))
          rw [e1, modLast_snoc]
          exact ⟨R0, _, rfl, e2, e3, le_rfl⟩
        · rw [if_neg (fun hm => (hdis x hm).2 hx)]
          exact h.serv x hx
      · intro x hx
        simp only [hon, if_true]
        rw [hrows, if_neg (fun hm => (hdis x hm).1 hx)]
        exact h.wait x (by rw [hqs]; exact List.mem_append.mpr (.inr hx))
      · intro x hx1 hx2
        simp only [hon, if_true]
        have hx2' : x ∉ (s.queue.take k).map (·.id) ++ (agents s.departures).map (·.id) :=
          fun hm => hx2 (h3'.mem_iff.mpr hm)
        simp only [List.mem_append, not_or] at hx2'
        rw [hrows, if_neg hx2'.1]
        refine h.rest x ?_ hx2'.2
        rw [hqs]
        simp only [List.mem_append, not_or]
        exact ⟨hx2'.1, hx1⟩
  | delay t kb s' h1 =>
    cases h1 with
    | none => exact h
    | some a rest deps _ _ _ h4 h2 h3 =>
      have p1 := h3.map (fun x : Agent T => x.id)
      have p2 := h4.map (fun x : Agent T => x.id)
      simp only [List.map_cons] at p1 p2
      have p3 := p2.trans p1.symm
      have hpres : (presentIds s).Perm ((agents s.arrivals).map (·.id) ++
          (s.queue.map (·.id) ++ (agents deps).map (·.id))) :=
        List.Perm.append_left _ (List.Perm.append_left _ p3)
      exact ⟨hon, hpres.nodup_iff.mp h.nodup, fun x hx => h.ids x (hpres.mem_iff.mpr hx),
        fun x hx => h.serv x (p3.mem_iff.mpr hx), h.wait,
        fun x hx1 hx2 => h.rest x hx1 (fun hm => hx2 (p3.mem_iff.mp hm))⟩
  | collect b => exact absurd hok (by simp [DataOk])
  | noteFull => exact ⟨hon, h.nodup, h.ids, h.serv, h.wait, h.rest⟩
  | noteOpen => exact h
  | clearData => exact absurd hok (by simp [DataOk])
  | clear =>
    rw [clear_simple c s hk]
    exact ⟨hon, by simp [presentIds], by simp [presentIds], by simp, by simp, by simp [Data.rows]⟩
  | handover a arr h1 h2 h3 =>
    obtain ⟨k1, k2, k3⟩ := hok
    have e2' := (h2.map (fun x : Agent T => x.id)).append_right
      (s.queue.map (·.id) ++ (agents s.departures).map (·.id))
    simp only [List.map_cons, List.cons_append] at e2'
    refine ⟨hon, e2'.nodup_iff.mpr (List.nodup_cons.mpr ⟨k2, h.nodup⟩), ?_, h.serv, h.wait, h.rest⟩
    intro x hx hi
    rcases List.mem_cons.mp (e2'.mem_iff.mp hx) with rfl | hx
    · exact k3 hi
    · exact h.ids x hx hi

theorem DataOk.clock {c : QCfg T} {s : QS T} {op : QOp T} (h : DataOk c s op) : ClockOk s op := by
  cases op with
  | delay t kb => cases t <;> simp_all [DataOk, ClockOk]
  | handover a => exact h.1
  | _ => trivial

theorem Reach.dataInv {c : QCfg T} {ok : QS T → QOp T → Prop} {s : QS T} (hk : Simple c)
    (hf : Forward c) (hok : ∀ s op, ok s op → DataOk c s op) (h : Reach c true ok s) : DataInv c s := by
  have : DataInv c s ∧ QInv s ∧ ClockInv s := by
    refine h.induct (P := fun s => DataInv c s ∧ QInv s ∧ ClockInv s) hk ⟨?_, QInv.init c true, ?_⟩
      fun _ _ _ hb hi hx ho => ⟨hi.1.step hk hf hb hi.2.1 hi.2.2 (hok _ _ hx) ho, hi.2.1.step hk hb ho,
        (hi.2.2.step hk hf hb (hok _ _ hx).clock ho).1⟩
    · constructor <;> simp [QS.init, presentIds, Data.rows]
    · constructor <;> simp [QS.init]
  exact this.1

end Verif
