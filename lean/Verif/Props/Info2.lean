import Verif.Props.Info

/-! # Witnesses and counterexamples for C70 and C71 -/

namespace Verif.InfoSpec

open QueueSpec

/-! ### Counterexamples -/

/-- An InfoQueue on edge `k`: an arrival every 2 time units, service takes 3, `n` servers, until time `d`. -/
def infoDemo (k : Nat) (n : Int) (d : ℕ∞) : QCfg ℕ∞ :=
  { demo with kind := .loss, edge := ⟨k, k + 1, k, 1⟩, servers := .fin n, arrivalF := fun _ t => t + 2
              serviceF := fun _ t => t + 3, deactiveT := d, buffer := .inf }

/-- The call succeeds with result `s`, decidably. -/
def outIs (x : Except Err (QS ℕ∞)) (s : QS ℕ∞) : Bool :=
  match x with
  | .ok s' => decide (s' = s)
  | .error _ => false

theorem outIs_spec {x : Except Err (QS ℕ∞)} {s : QS ℕ∞} (h : outIs x s = true) : x = .ok s := by
  unfold outIs at h
  split at h
  · simp only [decide_eq_true_eq] at h; rw [h]
  · simp at h

/-- The call raises `e`, decidably. -/
def outFails (x : Except Err (QS ℕ∞)) (e : Err) : Bool :=
  match x with
  | .ok _ => false
  | .error e' => decide (e' = e)

theorem outFails_spec {x : Except Err (QS ℕ∞)} {e : Err} (h : outFails x e = true) : x = .error e := by
  unfold outFails at h
  split at h
  · simp at h
  · simp only [decide_eq_true_eq] at h; rw [h]

/-- F7: with `deactive_t = 5` the queue raises AttributeError when its second arrival (at time 4) comes. -/
theorem C70_attribute_error :
    let c := infoDemo 0 1 5
    let s := resOps c true [.setActive, .next]
    Reach c true anyOp s ∧ infoRun c (QS.init c true) .setActive = .ok (resOps c true [.setActive]) ∧
    infoRun c (resOps c true [.setActive]) .next = .ok s ∧ s.time = 4 ∧
    infoRun c s .next = .error .attributeError ∧ ∃ s', QOp.next.run c s = .ok s' ∧ s'.active = false :=
  ⟨reachOps _ _ _ (by decide +kernel), outIs_spec (by decide +kernel), outIs_spec (by decide +kernel),
    by decide +kernel, outFails_spec (by decide +kernel), resOps (infoDemo 0 1 5) true [.setActive, .next, .next],
    outIs_spec (by decide +kernel), by decide +kernel⟩

/-- Two InfoQueues. -/
def twoInfo (size : Nat) : ICfg ℕ∞ := ⟨fun k => infoDemo k 2 ⊤, fun _ => true, fun _ => size⟩

/-- Operations one after the other. -/
def runI (C : ICfg ℕ∞) : List (Nat × QOp ℕ∞) → IWorld ℕ∞ → Except Err (IWorld ℕ∞)
  | [], w => .ok w
  | (k, op) :: ops, w =>
    match w.run C k op with
    | .error e => .error e
    | .ok w => runI C ops w

theorem reachI {C : ICfg ℕ∞} {b : Bool} {ok : Nat → QS ℕ∞ → QOp ℕ∞ → Prop} (ops : List (Nat × QOp ℕ∞)) :
    ∀ {w w' : IWorld ℕ∞}, IReach C b ok w → (∀ p ∈ ops, ∀ s, ok p.1 s p.2) → runI C ops w = .ok w' →
    IReach C b ok w' := by
  induction ops with
  | nil => intro w w' h _ hr; simp only [runI, Except.ok.injEq] at hr; exact hr ▸ h
  | cons p ops ih =>
    intro w w' h hok hr
    simp only [runI] at hr
    split at hr
    · simp at hr
    · rename_i w1 h1
      exact ih (h.step p.1 p.2 (hok p (by simp) _) h1) (fun q hq => hok q (by simp [hq])) hr

/-- The agent `(0, 0)` made by queue 0 and served there from 2 to 5 moves on to queue 1 and arrives at time 5. -/
def trip : List (Nat × QOp ℕ∞) :=
  [(0, .setActive), (0, .next), (0, .next), (0, .next), (1, .handover ⟨(0, 0), 5, 0, .plain⟩)]

/-- The result (the initial world if an exception was raised). -/
def tripEnd (C : ICfg ℕ∞) (ops : List (Nat × QOp ℕ∞)) : IWorld ℕ∞ :=
  match runI C ops (IWorld.init C true) with
  | .ok w => w
  | .error _ => IWorld.init C true

theorem tripReach (C : ICfg ℕ∞) {ok : Nat → QS ℕ∞ → QOp ℕ∞ → Prop} (ops : List (Nat × QOp ℕ∞))
    (hok : ∀ p ∈ ops, ∀ s, ok p.1 s p.2) : IReach C true ok (tripEnd C ops) := by
  unfold tripEnd
  split
  · rename_i w hw
    exact reachI ops .init hok hw
  · exact .init

/-- The operation succeeds and the result has property `p`. -/
def runIs (C : ICfg ℕ∞) (w : IWorld ℕ∞) (k : Nat) (op : QOp ℕ∞) (p : IWorld ℕ∞ → Bool) : Bool :=
  match w.run C k op with
  | .ok w' => p w'
  | .error _ => false

theorem runIs_spec {C : ICfg ℕ∞} {w : IWorld ℕ∞} {k : Nat} {op : QOp ℕ∞} {p : IWorld ℕ∞ → Bool}
    (h : runIs C w k op p = true) : ∃ w', w.run C k op = .ok w' ∧ p w' = true := by
  unfold runIs at h
  split at h
  · rename_i w' hw; exact ⟨w', hw, h⟩
  · simp at h

/-- The operation raises `e`. -/
def runFails (C : ICfg ℕ∞) (w : IWorld ℕ∞) (k : Nat) (op : QOp ℕ∞) (e : Err) : Bool :=
  match w.run C k op with
  | .ok _ => false
  | .error e' => decide (e' = e)

theorem runFails_spec {C : ICfg ℕ∞} {w : IWorld ℕ∞} {k : Nat} {op : QOp ℕ∞} {e : Err}
    (h : runFails C w k op e = true) : w.run C k op = .error e := by
  unfold runFails at h
  split at h
  · simp at h
  · rename_i e' he; rw [he]; simp only [decide_eq_true_eq] at h; rw [h]

/-- The trip goes well: the agent brings the news that queue 0 had 1 agent at time 5 to queue 1, and knows about both
queues then. -/
example :
    let w := tripEnd (twoInfo 2) (trip ++ [(1, .next)])
    w.net 1 = ([⟨(5 : ℕ∞), some (.fin 2, 1)⟩, IRow.unknown] : List (IRow ℕ∞)) ∧
    w.mem (0, 0) = some ([⟨(5 : ℕ∞), some (.fin 2, 1)⟩, ⟨(5 : ℕ∞), some (.fin 2, 1)⟩] : List (IRow ℕ∞)) := by
  constructor <;> decide +kernel

/-- F25: an agent that arrives at the moment another one departs is admitted first, but what it knows is not looked at. -/
theorem C71_tie :
    let w := tripEnd (twoInfo 2) ([(1, .handover ⟨(7, 0), 2, 0, .plain⟩), (1, .next)] ++ trip)
    IReach (twoInfo 2) true (fun _ _ _ => True) w ∧ (w.qs 1).numArrivals = 1 ∧
    (∃ m, w.mem (0, 0) = some m ∧ m[0]? = some ⟨(5 : ℕ∞), some (.fin 2, 1)⟩) ∧
    ∃ w', w.run (twoInfo 2) 1 .next = .ok w' ∧ (w'.qs 1).numArrivals = 2 ∧ (w'.net 1)[0]? = some IRow.unknown := by
  refine ⟨tripReach _ _ (fun _ _ _ => trivial), by decide +kernel, ?_, ?_⟩
  · refine ⟨([⟨(5 : ℕ∞), some (.fin 2, 1)⟩, IRow.unknown] : List (IRow ℕ∞)), by decide +kernel, by decide +kernel⟩
  · obtain ⟨w', h1, h2⟩ := runIs_spec (p := fun w' => decide ((w'.qs 1).numArrivals = 2 ∧
      (w'.net 1)[0]? = some IRow.unknown)) (C := twoInfo 2)
      (w := tripEnd (twoInfo 2) ([(1, .handover ⟨(7, 0), 2, 0, .plain⟩), (1, .next)] ++ trip)) (k := 1) (op := .next)
      (by decide +kernel)
    simp only [decide_eq_true_eq] at h2
    exact ⟨w', h1, h2⟩

/-- F25: with the default `net_size = 1` every InfoQueue but the first raises IndexError. -/
theorem C71_default_net_size :
    let w := tripEnd (twoInfo 1) trip
    IReach (twoInfo 1) true (fun _ _ _ => True) w ∧ (w.qs 1).time = 5 ∧
    w.run (twoInfo 1) 1 .next = .error .indexError :=
  ⟨tripReach _ _ (fun _ _ _ => trivial), by decide +kernel, runFails_spec (by decide +kernel)⟩

/-- Two InfoQueues, of which the second was given another `net_size`. -/
def mixedInfo (size : Nat) : ICfg ℕ∞ := { twoInfo 2 with size := fun k => if k = 0 then 2 else size }

/-- The hypotheses of `C71_other_size` are met: an agent from a queue with `net_size=2` at one with `net_size=3`, or 1. -/
theorem C71_mixed_sizes :
    IReach (mixedInfo 3) true (fun _ _ _ => True) (tripEnd (mixedInfo 3) trip) ∧
    headTime ((tripEnd (mixedInfo 3) trip).qs 1).arrivals < headTime ((tripEnd (mixedInfo 3) trip).qs 1).departures ∧
    (∃ m, (tripEnd (mixedInfo 3) trip).mem (0, 0) = some m ∧ m.length = 2) ∧ ((tripEnd (mixedInfo 3) trip).net 1).length = 3 ∧
    (tripEnd (mixedInfo 3) trip).run (mixedInfo 3) 1 .next = .error .valueError ∧
    (tripEnd (mixedInfo 1) trip).run (mixedInfo 1) 1 .next = .error .indexError := by
  refine ⟨tripReach _ _ (fun _ _ _ => trivial), by decide +kernel, ?_, by decide +kernel, runFails_spec (by decide +kernel),
    runFails_spec (by decide +kernel)⟩
  exact ⟨([⟨(5 : ℕ∞), some (.fin 2, 1)⟩, IRow.unknown] : List (IRow ℕ∞)), by decide +kernel, by decide +kernel⟩

/-- The hypotheses of `C71_newer` are met. -/
example : Good (twoInfo 2) ∧ IReach (twoInfo 2) true (Onward (twoInfo 2))
      (tripEnd (twoInfo 2) [(0, .setActive), (0, .next), (0, .next)]) := by
  refine ⟨⟨fun _ _ => rfl, fun _ _ => ⟨fun _ _ => le_self_add, fun _ _ => le_self_add⟩, fun _ => rfl⟩, ?_⟩
  refine tripReach _ _ ?_
  simp only [List.mem_cons, List.not_mem_nil, or_false, Onward, ClockOk]
  rintro p (rfl | rfl | rfl) s <;> simp

theorem okIs {X : Type*} {x : Except Err X} {p : X → Bool} (h : (match x with | .ok y => p y | .error _ => false) = true) :
    ∃ y, x = .ok y ∧ p y = true := by
  cases x with
  | ok y => exact ⟨y, rfl, h⟩
  | error e => cases h

/-- Two InfoQueues with one server and no room to wait. -/
def noRoom (size : Nat) : ICfg ℕ∞ := ⟨fun k => { infoDemo k 1 ⊤ with buffer := .fin 0 }, fun _ => true, fun _ => size⟩

/-- Queue 1 of two is full when the agent that left queue 0 arrives there. -/
def fullTrip : List (Nat × QOp ℕ∞) :=
  [(1, .handover ⟨(7, 0), 4, 0, .plain⟩), (1, .next)] ++ trip

/-- What has become of the two queues then. -/
def atDoor (size : Nat) : IWorld ℕ∞ := tripEnd (noRoom size) fullTrip

/-- The next event at queue 1. -/
def atDoorNext (size : Nat) : Except Err (QS ℕ∞) := infoRun ((noRoom size).qc 1) ((atDoor size).qs 1) .next

/-- The hypotheses of `C71_cannot_lose` are met (`net_size` is 1). -/
example : IReach (noRoom 1) true (fun _ _ _ => True) (atDoor 1) ∧ ((noRoom 1).qc 1).edge.idx = 1 ∧
    (∃ net, (atDoor 1).gather 1 .next = .ok net) ∧ (∃ m, (atDoor 1).mem (0, 0) = some m ∧ m.length = 1) ∧
    ∃ s', atDoorNext 1 = .ok s' ∧ (s'.lost.drop ((atDoor 1).qs 1).lost.length).map (·.id) = [(0, 0)] ∧
      (0, 0) ∉ (s'.created.drop ((atDoor 1).qs 1).created.length).map Prod.fst := by
  refine ⟨tripReach _ _ (fun _ _ _ => trivial), rfl, ?_, ?_, ?_⟩
  · obtain ⟨net, h, -⟩ := okIs (x := (atDoor 1).gather 1 .next) (p := fun _ => true) (by decide +kernel)
    exact ⟨net, h⟩
  · exact ⟨[⟨(5 : ℕ∞), some (.fin 1, 0)⟩], by decide +kernel, rfl⟩
  · obtain ⟨s', h1, h2⟩ := okIs (x := atDoorNext 1)
      (p := fun s' => decide ((s'.lost.drop ((atDoor 1).qs 1).lost.length).map (·.id) = [(0, 0)] ∧
        (0, 0) ∉ (s'.created.drop ((atDoor 1).qs 1).created.length).map Prod.fst)) (by decide +kernel)
    exact ⟨s', h1, of_decide_eq_true h2⟩

/-- The second arrival is about to find queue 0 full. -/
def secondComes : IWorld ℕ∞ := tripEnd (noRoom 2) [(0, .setActive), (0, .next)]

/-- The hypotheses of `C71_lost_knows` are met (`net_size` is 2). -/
example : ∃ w', secondComes.run (noRoom 2) 0 .next = .ok w' ∧
    ((w'.qs 0).lost.drop (secondComes.qs 0).lost.length).map (·.id) = [(0, 1)] ∧
    (0, 1) ∉ ((w'.qs 0).created.drop (secondComes.qs 0).created.length).map Prod.fst ∧ (secondComes.mem (0, 1)).isSome := by
  obtain ⟨w', h1, h2⟩ := okIs (x := secondComes.run (noRoom 2) 0 .next) (p := fun w' => decide
      (((w'.qs 0).lost.drop (secondComes.qs 0).lost.length).map (·.id) = [(0, 1)] ∧
      (0, 1) ∉ ((w'.qs 0).created.drop (secondComes.qs 0).created.length).map Prod.fst ∧ (secondComes.mem (0, 1)).isSome))
      (by decide +kernel)
  exact ⟨w', h1, of_decide_eq_true h2⟩

end Verif.InfoSpec
