import Verif.Lemmas.FsmReentryOk

/-! C91: the state machine when observers and actions call back. -/

namespace Verif.FsmR
open Verif Verif.Fsm Verif.Loops

/-- **C91**.  Whatever observers and actions do while they are called, the machine follows its table: the calls of the machine, made at whatever depth, in the order in which they
were made, leave it in the state the table gives for the events consumed. -/
theorem C91_follows_table (lis : Nat → Bool) (c : Cfg) (name : Nat → String) (ok : St → Act → Prop) (s : St) (h : Reach lis c name ok s) :
    ∃ old done, Spec.accepted false (machineOps s.hist) = old ++ done ++ s.m.queue ∧
      s.m.cur = Spec.exec c (Spec.initial c) done ∧ (.reset ∉ machineOps s.hist → old = []) := by
  rw [h.hinv.m]
  exact C32_follows_table c _

/-! ### Which notifications there are -/

theorem notice_update (c : Cfg) (ops : List Op) (hs : (after c ops).started = true) (hd : (Spec.decl c (after c ops).cur).isSome) :
    ∃ ch : Bool, notice (after c ops) .update = some (c.id ++ ":" ++ (after c (ops ++ [.update])).cur, ch) ∧
      (ch = true ↔ ∃ e ∈ (after c ops).queue, Spec.delta c (after c ops).cur e ≠ none) := by
  have hstep : after c (ops ++ [.update]) = (update (after c ops)).1 := by
    simp only [after, runOps_append, runOps, Fsm.step]
  rw [hstep]
  have ht := after_table c ops
  have hid := after_id c ops
  generalize after c ops = m at *
  obtain ⟨st, hst⟩ := Option.isSome_iff_exists.mp hd
  have htr : m.table m.cur = some st.transitions := by
    rw [ht, buildTable_decl c.states c.id]; exact congrArg _ hst
  have hdl : ∀ e, Spec.delta c m.cur e = firstMatch e st.transitions := by
    intro e; rw [delta_eq, ← ht, htr]; rfl
  simp only [notice, update, hs, if_true, htr, Option.map_some, hid]
  rcases consume_spec st.transitions m.cur m.queue with ⟨h1, h2⟩ | ⟨pre, e, rest, d, h1, h2, h3, h4⟩
  · refine ⟨false, by rw [h2], ?_⟩
    simp only [Bool.false_eq_true, false_iff]
    rintro ⟨e, he, h⟩
    exact h (by rw [hdl, h1 e he])
  · refine ⟨true, by rw [h4], ?_⟩
    simp only [true_iff]
    exact ⟨e, by simp [h1], by rw [hdl, h3]; simp⟩

theorem notice_enqueueAndUpdate (c : Cfg) (ops : List Op) (e : String) (hs : (after c ops).started = true) :
    notice (after c ops) (.enqueueAndUpdate e) = notice (after c (ops ++ [.enqueue e])) .update := by
  rw [after_snoc]
  simp [notice, Fsm.step, enqueue, hs]

theorem after_enqueueAndUpdate (c : Cfg) (ops : List Op) (e : String) : after c (ops ++ [.enqueueAndUpdate e]) = after c (ops ++ [.enqueue e] ++ [.update]) := by
  rw [after_snoc, after_snoc, after_snoc]
  rfl

theorem started_enqueue (c : Cfg) (ops : List Op) (e : String) (hs : (after c ops).started = true) :
    (after c (ops ++ [.enqueue e])).started = true ∧ (after c (ops ++ [.enqueue e])).cur = (after c ops).cur ∧ (after c (ops ++ [.enqueue e])).queue = (after c ops).queue ++ [e] := by
  rw [after_snoc]
  simp [Fsm.step, enqueue, hs]

theorem notice_none (c : Cfg) (ops : List Op) (hd : Spec.decl c (after c ops).cur = none) : (after c ops).table (after c ops).cur = none := by
  rw [after_table c ops, buildTable_decl c.states c.id]
  simpa using hd

theorem notice_iff (c : Cfg) (ops : List Op) (op : Op) (n : String) (ch : Bool) : notice (after c ops) op = some (n, ch) ↔ Notifies c ops op n ch := by
  have hu : ∀ ops, notice (after c ops) .update = some (n, ch) ↔ Notifies c ops .update n ch := by
    intro ops
    cases hs : (after c ops).started with
    | false => simp [notice, Notifies, hs]
    | true =>
      cases hd : Spec.decl c (after c ops).cur with
      | none => simp [notice, Notifies, hs, hd, notice_none c ops hd]
      | some st =>
        obtain ⟨ch', h1, h2⟩ := notice_update c ops hs (by rw [hd]; rfl)
        rw [h1]
        simp only [Notifies, hs, hd, Option.isSome_some, true_and, ← h2, Option.some.injEq, Prod.mk.injEq]
        constructor
        · rintro ⟨rfl, rfl⟩; exact ⟨rfl, Iff.rfl⟩
        · rintro ⟨rfl, h⟩; exact ⟨rfl, (Bool.eq_iff_iff.mpr h).symm⟩
  cases op with
  | update => exact hu ops
  | start =>
    have hid := after_id c ops
    simp only [notice, Notifies, after_snoc, Fsm.step, hid, Option.some.injEq, Prod.mk.injEq]
    constructor
    · rintro ⟨rfl, rfl⟩; exact ⟨rfl, rfl⟩
    · rintro ⟨rfl, rfl⟩; exact ⟨rfl, rfl⟩
  | enqueueAndUpdate e =>
    cases hs : (after c ops).started with
    | false => simp [notice, Notifies, hs]
    | true =>
      rw [notice_enqueueAndUpdate c ops e hs, hu]
      obtain ⟨e1, e2, e3⟩ := started_enqueue c ops e hs
      simp only [Notifies, e1, e2, e3, hs, after_enqueueAndUpdate]
  | _ => simp [notice, Notifies]

/-- **C91**: a call of the machine that notifies starts a notification at once, with the resulting state and the observers registered then, even if it was made by an observer or an action. -/
theorem C91_call_notifies (lis : Nat → Bool) (c : Cfg) (name : Nat → String) (ok : St → Act → Prop) (s : St) (h : Reach lis c name ok s) (h1 h2 : List Ev) (op : Op)
    (hh : s.hist = h1 ++ .op (.m op) :: h2) (n : String) (ch : Bool) (hn : Notifies c (machineOps h1) op n ch) :
    ∃ id h3, h2 = .begin id n ch (observersOf (machineOps h1 ++ [op])) :: h3 := by
  obtain ⟨id, obs, h3, rfl⟩ := (h.hinv.sound.next _ _ _ hh).1 op n ch rfl ((notice_iff ..).mpr hn)
  have hj := h.hinv.sound.just (h1 ++ [.op (.m op)]) (.begin id n ch obs) h3 (by rw [hh]; simp)
  obtain ⟨h0, op', -, -, e⟩ := hj
  refine ⟨id, h3, ?_⟩
  rw [e, machineOps_append]
  rfl

/-- **C91**: and every notification comes from such a call, made just before. -/
theorem C91_notified_only_by_calls (lis : Nat → Bool) (c : Cfg) (name : Nat → String) (ok : St → Act → Prop) (s : St) (h : Reach lis c name ok s) (h1 h2 : List Ev) (id : Nat) (n : String)
    (ch : Bool) (obs : List Nat) (hh : s.hist = h1 ++ .begin id n ch obs :: h2) :
    ∃ h0 op, h1 = h0 ++ [.op (.m op)] ∧ Notifies c (machineOps h0) op n ch ∧ obs = observersOf (machineOps h0 ++ [op]) := by
  obtain ⟨h0, op, e1, e2, e3⟩ := h.hinv.sound.just _ _ _ hh
  refine ⟨h0, op, e1, (notice_iff ..).mp e2, ?_⟩
  rw [e3, e1, machineOps_append]
  rfl

/-! ### Every observer and every action once -/

/-- A loop over observers, as a nested loop. -/
def asCall : Nat × Tag → Option (Nat × String × Bool)
  | (a, .inl (n, ch)) => some (a, n, ch)
  | _ => none

/-- A loop over actions. -/
def asAct : Nat × Tag → Option (Nat × Nat × String × Kind)
  | (a, .inr (o, n, k)) => some (a, o, n, k)
  | _ => none

theorem asCall_items (id : Nat) (h : List Ev) : (itemsOf id (h.filterMap view)).filterMap asCall = callsFor id h := by
  induction h with
  | nil => rfl
  | cons e h ih =>
    cases e with
    | call i o n' ch' =>
      by_cases ei : i = id
      · subst ei
        simp only [itemsOf, callsFor, view, List.filterMap_cons, if_true, asCall] at ih ⊢
        rw [ih]
      · simp only [itemsOf, callsFor, view, List.filterMap_cons, if_neg ei, asCall] at ih ⊢
        rw [ih]
    | act i o n' k a =>
      by_cases ei : i = id
      · subst ei
        simp only [itemsOf, callsFor, view, List.filterMap_cons, if_true, asCall] at ih ⊢
        rw [ih]
      · simp only [itemsOf, callsFor, view, List.filterMap_cons, if_neg ei, asCall] at ih ⊢
        rw [ih]
    | _ => simp only [itemsOf, callsFor, view, List.filterMap_cons] at ih ⊢; rw [ih]

theorem asAct_items (id : Nat) (h : List Ev) : (itemsOf id (h.filterMap view)).filterMap asAct = actsFor id h := by
  induction h with
  | nil => rfl
  | cons e h ih =>
    cases e with
    | call i o n' ch' =>
      by_cases ei : i = id
      · subst ei
        simp only [itemsOf, actsFor, view, List.filterMap_cons, if_true, asAct] at ih ⊢
        rw [ih]
      · simp only [itemsOf, actsFor, view, List.filterMap_cons, if_neg ei, asAct] at ih ⊢
        rw [ih]
    | act i o n' k a =>
      by_cases ei : i = id
      · subst ei
        simp only [itemsOf, actsFor, view, List.filterMap_cons, if_true, asAct] at ih ⊢
        rw [ih]
      · simp only [itemsOf, actsFor, view, List.filterMap_cons, if_neg ei, asAct] at ih ⊢
        rw [ih]
    | _ => simp only [itemsOf, actsFor, view, List.filterMap_cons] at ih ⊢; rw [ih]

theorem callsFor_eq {id : Nat} {n : String} {ch : Bool} {l r : List Nat} {h : List Ev} (hr : itemsOf id (h.filterMap view) ++ r.map (·, (.inl (n, ch) : Tag)) = l.map (·, .inl (n, ch))) :
    callsFor id h ++ r.map (·, n, ch) = l.map (·, n, ch) := by
  have := congrArg (List.filterMap asCall) hr
  rw [List.filterMap_append, asCall_items, List.filterMap_map, List.filterMap_map] at this
  have e : asCall ∘ (fun x : Nat => (x, (Sum.inl (n, ch) : Tag))) = some ∘ fun x => (x, n, ch) := rfl
  rwa [e, List.filterMap_eq_map] at this

theorem actsFor_eq {id o : Nat} {n : String} {k : Kind} {l r : List Nat} {h : List Ev} (hr : itemsOf id (h.filterMap view) ++ r.map (·, (.inr (o, n, k) : Tag)) = l.map (·, .inr (o, n, k))) :
    actsFor id h ++ r.map (·, o, n, k) = l.map (·, o, n, k) := by
  have := congrArg (List.filterMap asAct) hr
  rw [List.filterMap_append, asAct_items, List.filterMap_map, List.filterMap_map] at this
  have e : asAct ∘ (fun x : Nat => (x, (Sum.inr (o, n, k) : Tag))) = some ∘ fun x => (x, o, n, k) := rfl
  rwa [e, List.filterMap_eq_map] at this

theorem nothing_dropped {s : St} (ht : .threw ∉ s.hist) : (proj s).dropped = false := by
  simp only [proj, List.any_eq_false]
  intro x hx
  cases x with
  | threw => exact absurd hx ht
  | _ => simp [isThrew]

/-- **C91**.  A notification calls the observers that were registered when it began, in order, each once, with its own arguments, also when observers start notifications of their own: at any
time it has called a first part of them; all of them when it has come to its end, and it has if nothing threw and the call has returned. -/
theorem C91_every_observer_once (lis : Nat → Bool) (c : Cfg) (name : Nat → String) (ok : St → Act → Prop) (s : St) (h : Reach lis c name ok s) (id : Nat) (n : String) (ch : Bool) (obs : List Nat)
    (hb : .begin id n ch obs ∈ s.hist) :
    callsFor id s.hist <+: obs.map (·, n, ch) ∧ (.fin id ∈ s.hist → callsFor id s.hist = obs.map (·, n, ch)) ∧ (.threw ∉ s.hist → s.stack = [] → .fin id ∈ s.hist) := by
  have hi := h.loops.inv
  have hm : LEv.opn id (.inl (n, ch)) obs ∈ s.hist.filterMap view := List.mem_filterMap.mpr ⟨_, hb, rfl⟩
  obtain ⟨r, e1, e2, -⟩ := hi.opn id (.inl (n, ch)) obs hm
  have e3 := callsFor_eq e1
  refine ⟨⟨_, e3⟩, fun hf => ?_, fun ht hst => ?_⟩
  · obtain ⟨rfl, -⟩ := e2 (List.mem_filterMap.mpr ⟨_, hf, rfl⟩)
    simpa using e3
  · rcases hi.done (nothing_dropped ht) _ _ _ hm with hd | hd
    · obtain ⟨e, he, hv⟩ := List.mem_filterMap.mp hd
      cases e with
      | fin i => cases hv; exact he
      | over i o n' k => cases hv; exact absurd he (h.apart.1 _ _ _ _ _ _ _ hb)
      | _ => cases hv
    · rw [proj, hst] at hd
      exact absurd hd (by simp)

/-- **C91**.  The same for the actions of a listener: a loop over them calls the actions it began with, in order, each once, in the state it was called for. -/
theorem C91_every_action_once (lis : Nat → Bool) (c : Cfg) (name : Nat → String) (ok : St → Act → Prop) (s : St) (h : Reach lis c name ok s) (id o : Nat) (n : String) (k : Kind) (as : List Nat)
    (hb : .phase id o n k as ∈ s.hist) :
    actsFor id s.hist <+: as.map (·, o, n, k) ∧ (.over id o n k ∈ s.hist → actsFor id s.hist = as.map (·, o, n, k)) ∧ (.threw ∉ s.hist → s.stack = [] → .over id o n k ∈ s.hist) := by
  have hi := h.loops.inv
  have hm : LEv.opn id (.inr (o, n, k)) as ∈ s.hist.filterMap view := List.mem_filterMap.mpr ⟨_, hb, rfl⟩
  obtain ⟨r, e1, e2, -⟩ := hi.opn id (.inr (o, n, k)) as hm
  have e3 := actsFor_eq e1
  refine ⟨⟨_, e3⟩, fun hf => ?_, fun ht hst => ?_⟩
  · obtain ⟨rfl, -⟩ := e2 (List.mem_filterMap.mpr ⟨_, hf, rfl⟩)
    simpa using e3
  · rcases hi.done (nothing_dropped ht) _ _ _ hm with hd | hd
    · obtain ⟨e, he, hv⟩ := List.mem_filterMap.mp hd
      cases e with
      | fin i => cases hv; exact absurd he (h.apart.2.1 _ _ _ _ _ hb)
      | over i o' n' k' => cases hv; obtain ⟨rfl, rfl, rfl⟩ := h.apart.2.2 _ _ _ _ _ _ _ _ hb he; exact he
      | _ => cases hv
    · rw [proj, hst] at hd
      exact absurd hd (by simp)

/-- **C91**: which loops there are.  A listener that is told of a change runs its one-off actions, then its entry actions, then its periodic actions for the state; told that nothing changed, only
the periodic ones; each loop starts with the actions due at that time, one-off actions being due until a loop over them has come to its end. -/
theorem C91_listener_phases (lis : Nat → Bool) (c : Cfg) (name : Nat → String) (ok : St → Act → Prop) (s : St) (h : Reach lis c name ok s) (h1 h2 : List Ev) (e : Ev) (hh : s.hist = h1 ++ e :: h2) (o : Nat) (n : String) :
    (Listens lis o n true e → ∃ id h3, h2 = .phase id o n .once (due name o n .once (h1 ++ [e])) :: h3) ∧
    (Listens lis o n false e → ∃ id h3, h2 = .phase id o n .each (due name o n .each (h1 ++ [e])) :: h3) ∧
    (∀ i, e = .over i o n .once → ∃ id h3, h2 = .phase id o n .entry (due name o n .entry (h1 ++ [e])) :: h3) ∧
    (∀ i, e = .over i o n .entry → ∃ id h3, h2 = .phase id o n .each (due name o n .each (h1 ++ [e])) :: h3) := by
  have hj : ∀ id k as h3, h2 = .phase id o n k as :: h3 → as = due name o n k (h1 ++ [e]) := by
    intro id k as h3 e2
    exact (h.hinv.sound.just (h1 ++ [e]) (.phase id o n k as) h3 (by rw [hh, e2]; simp)).1
  obtain ⟨-, n1, n2, n3⟩ := h.hinv.sound.next _ _ _ hh
  refine ⟨fun hl => ?_, fun hl => ?_, fun i hl => ?_, fun i hl => ?_⟩
  · obtain ⟨id, as, h3, e2⟩ := n1 o n true hl; exact ⟨id, h3, by rw [e2, hj _ _ _ _ e2]; rfl⟩
  · obtain ⟨id, as, h3, e2⟩ := n1 o n false hl; exact ⟨id, h3, by rw [e2, hj _ _ _ _ e2]; rfl⟩
  · obtain ⟨id, as, h3, e2⟩ := n2 i o n hl; exact ⟨id, h3, by rw [e2, hj _ _ _ _ e2]⟩
  · obtain ⟨id, as, h3, e2⟩ := n3 i o n hl; exact ⟨id, h3, by rw [e2, hj _ _ _ _ e2]⟩

/-- **C91**: and there are no others. -/
theorem C91_phases_only_then (lis : Nat → Bool) (c : Cfg) (name : Nat → String) (ok : St → Act → Prop) (s : St) (h : Reach lis c name ok s) (h1 h2 : List Ev) (id o : Nat) (n : String) (k : Kind) (as : List Nat)
    (hh : s.hist = h1 ++ .phase id o n k as :: h2) :
    as = due name o n k h1 ∧ ∃ h0 e, h1 = h0 ++ [e] ∧ match k with
      | .once => Listens lis o n true e
      | .entry => ∃ i, e = .over i o n .once
      | .each => (∃ i, e = .over i o n .entry) ∨ Listens lis o n false e := by
  obtain ⟨e1, e2⟩ := h.hinv.sound.just _ _ _ hh
  refine ⟨e1, ?_⟩
  cases k with
  | once => exact e2
  | entry => exact e2
  | each => exact e2

/-- **C91**.  If observers and actions keep to the rules (`Ok`), no invalid iterator is used, however the calls are nested and whatever is thrown.
Missing: calls against the rules, where it fails (`C91_violation_register_in_observer`, `C91_violation_remove_in_action`, `C91_violation_one_off_reenters`). -/
theorem C91_never_undefined_partial (lis : Nat → Bool) (c : Cfg) (name : Nat → String) (s : St) (h : Reach lis c name Ok s) : s.bad = false := h.oinv.bad

/-- **C91**.  And then every one-off action is called once for every time it was registered, or is still waiting, as long as nothing throws.
Missing: exceptions and calls against the rules, where it fails (`C91_violation_one_off_throws`, `C91_violation_one_off_reenters`). -/
theorem C91_one_off_once_partial (lis : Nat → Bool) (c : Cfg) (name : Nat → String) (s : St) (h : Reach lis c name Ok s) (ht : .threw ∉ s.hist) (o : Nat) (n : String) (a : Nat) :
    ran o n a s.hist + (waiting s o n).count a = added name o n a s.hist := h.ainv ht o n a

/-- **C91**: the rules are needed.  An observer registered or removed during a notification: if that notification goes on, at any later time, an invalid iterator is used. -/
theorem C91_observers_changed_in_notification (lis : Nat → Bool) (c : Cfg) (name : Nat → String) (ok : St → Act → Prop) (s s1 s2 : St) (h : Reach lis c name ok s) (op : Op)
    (hop : (∃ o, op = .registerObserver o) ∨ op = .unregisterObservers) (id : Nat) (n : String) (ch : Bool) (v : Nat) (rest rest' : List Nat) (below : List Frame) (hf : .notify id n ch v rest ∈ s.stack)
    (hs : step lis s (.op (.m op)) = some s1) (as : List Act) (hr : run lis s1 as = some s2) (hb : s2.bad = false) (ht : s2.stack = .notify id n ch v rest' :: below) :
    ∃ s3, step lis s2 .tick = some s3 ∧ s3.bad = true := by
  have h1 : v ≤ s.over := h.known _ hf
  have h2 : s1.over = s.over + 1 := by
    unfold step at hs
    split at hs
    · cases hs
    simp only at hs
    split at hs
    · cases hs
      rcases hop with ⟨o, rfl⟩ | rfl <;> rfl
    · cases hs
  have h3 := (run_older as hr).1
  refine ⟨{ s2 with bad := true }, ?_, rfl⟩
  simp only [step, hb, Bool.false_eq_true, if_false, tick, ht]
  rw [if_pos (by omega)]

/-- **C91**: the rules are needed.  Actions of a kind and state registered or removed while actions of that kind and state are run: if that loop goes on, at any later time, an invalid iterator
is used. -/
theorem C91_actions_changed_in_loop (lis : Nat → Bool) (c : Cfg) (name : Nat → String) (ok : St → Act → Prop) (s s1 s2 : St) (h : Reach lis c name ok s) (o : Nat) (op : LOp) (k : Kind) (n : String)
    (hop : changes (name o) op k n) (hn : ∀ m ch, op ≠ .notified m ch) (id v : Nat) (rest rest' : List Nat) (below : List Frame) (hf : .acts id o n k v rest ∈ s.stack)
    (hs : step lis s (.op (.l o op)) = some s1) (as : List Act) (hr : run lis s1 as = some s2) (hb : s2.bad = false) (ht : s2.stack = .acts id o n k v rest' :: below) :
    ∃ s3, step lis s2 .tick = some s3 ∧ s3.bad = true := by
  have h1 : v ≤ s.lver o k n := h.known _ hf
  have h2 : s1.lver o k n = s.lver o k n + 1 := by
    unfold step at hs
    split at hs
    · cases hs
    simp only at hs
    split at hs
    · cases hs
      rw [call_l hn]
      exact versions_changed (by rw [h.hinv.nm]; exact hop) hn
    · cases hs
  have h3 := (run_older as hr).2 o k n
  refine ⟨{ s2 with bad := true }, ?_, rfl⟩
  simp only [step, hb, Bool.false_eq_true, if_false, tick, ht]
  rw [if_pos (by omega)]

/-! ### Concrete cases -/

theorem Reach.run {lis : Nat → Bool} {c : Cfg} {name : Nat → String} {s s' : St} (h : Reach lis c name (fun _ _ => True) s) (as : List Act) (hr : FsmR.run lis s as = some s') :
    Reach lis c name (fun _ _ => True) s' := by
  induction as generalizing s with
  | nil => cases hr; exact h
  | cons a as ih =>
    simp only [FsmR.run] at hr
    split at hr
    · cases hr
    · rename_i s1 e
      exact ih (h.step trivial e) hr

/-- `Ok`, as a check. -/
def okB (s : St) : Act → Bool
  | .op (.m op) =>
    (match op with | .registerObserver _ | .unregisterObservers => s.stack.all fun f => !f.isNotify | _ => true) &&
    (match notice s.m op with
      | some (n, true) => s.stack.all fun f => match f with | .acts _ _ n' .once _ _ => n' ≠ n | _ => true
      | _ => true)
  | .op (.l o op) => match op with
    | .addAction m _ => s.stack.all fun f => !f.over o .entry (completeName (s.lst o).machine m)
    | .addOneOff m _ => s.stack.all fun f => !f.over o .once (completeName (s.lst o).machine m)
    | .addPeriodic m _ | .removeState m => s.stack.all fun f => !f.over o .each (completeName (s.lst o).machine m)
    | .removeAll => s.stack.all fun f => match f with | .acts _ o' _ .each _ _ => o' ≠ o | _ => true
    | .notified m ch => !ch || s.stack.all fun f => !f.over o .once m
  | _ => true

theorem okB_ok {s : St} {a : Act} (h : okB s a = true) : Ok s a := by
  cases a with
  | op x =>
    cases x with
    | m op =>
      simp only [okB, Bool.and_eq_true] at h
      refine ⟨?_, fun n hn f hf o => ?_⟩
      · rintro (⟨o, rfl⟩ | rfl) f hf
        · simpa using List.all_eq_true.mp h.1 f hf
        · simpa using List.all_eq_true.mp h.1 f hf
      · have h2 := h.2
        rw [hn] at h2
        have := List.all_eq_true.mp h2 f hf
        cases f with
        | acts i o' n' k v r =>
          refine Bool.eq_false_iff.mpr fun he => ?_
          obtain ⟨-, rfl, rfl⟩ := over_acts.mp he
          simp at this
        | _ => rfl
    | l o op =>
      intro k n hc f hf
      cases op with
      | addAction m b => obtain ⟨rfl, rfl⟩ := hc; simpa using List.all_eq_true.mp h f hf
      | addOneOff m b => obtain ⟨rfl, rfl⟩ := hc; simpa using List.all_eq_true.mp h f hf
      | addPeriodic m b => obtain ⟨rfl, rfl⟩ := hc; simpa using List.all_eq_true.mp h f hf
      | removeState m => obtain ⟨rfl, rfl⟩ := hc; simpa using List.all_eq_true.mp h f hf
      | removeAll =>
        cases hc
        have := List.all_eq_true.mp h f hf
        cases f with
        | acts i o' n' k v r =>
          refine Bool.eq_false_iff.mpr fun he => ?_
          obtain ⟨rfl, rfl, rfl⟩ := over_acts.mp he
          simp at this
        | _ => rfl
      | notified m ch =>
        obtain ⟨rfl, rfl, rfl⟩ := hc
        simp only [okB, Bool.not_true, Bool.false_or] at h
        simpa using List.all_eq_true.mp h f hf
  | _ => trivial

/-- A run that keeps to the rules. -/
def runOk (lis : Nat → Bool) (s : St) : List Act → Option St
  | [] => some s
  | a :: as => if okB s a then match step lis s a with
      | none => none
      | some s' => runOk lis s' as
    else none

theorem Reach.runOk {lis : Nat → Bool} {c : Cfg} {name : Nat → String} {s s' : St} (h : Reach lis c name Ok s) (as : List Act) (hr : FsmR.runOk lis s as = some s') : Reach lis c name Ok s' := by
  induction as generalizing s with
  | nil => cases hr; exact h
  | cons a as ih =>
    simp only [FsmR.runOk] at hr
    split at hr
    · rename_i hk
      split at hr
      · cases hr
      · rename_i s1 e
        exact ih (h.step (okB_ok hk) e) hr
    · cases hr

/-- A, from which "go" leads to B and "self" back to A; B, from which "next" leads to C. -/
def exCfg : Cfg := ⟨"m", [⟨"A", [⟨"go", "B"⟩, ⟨"self", "A"⟩]⟩, ⟨"B", [⟨"next", "C"⟩]⟩, ⟨"C", []⟩]⟩

/-- A nested use that keeps to the rules: observer 0, told of B, sends "next", so that a second notification (of C) is made while the first (of B) is under way; observer 1 is a listener with
an entry action 7, and a one-off action 8 that throws nothing, for B.  Every observer is told of both, and both actions are run once. -/
theorem C91_example_nested : ∃ s, Reach (fun o => o = 1) exCfg (fun _ => "m") Ok s ∧ s.stack = [] ∧ .threw ∉ s.hist ∧ s.m.cur = "C" ∧ .begin 4 "m:B" true [0, 1] ∈ s.hist ∧
    .begin 5 "m:C" true [0, 1] ∈ s.hist ∧ callsFor 4 s.hist = [(0, "m:B", true), (1, "m:B", true)] ∧ callsFor 5 s.hist = [(0, "m:C", true), (1, "m:C", true)] ∧
    ran 1 "m:B" 8 s.hist = 1 ∧ actsFor 10 s.hist = [(7, 1, "m:B", .entry)] := by
  have h : (runOk (fun o => o = 1) (St.init exCfg fun _ => "m")
      ([.op (.m (.registerObserver 0)), .op (.m (.registerObserver 1)), .op (.l 1 (.addAction "B" 7)), .op (.l 1 (.addOneOff "B" 8)), .op (.m .start), .tick, .ret, .tick, .tick, .tick, .tick, .tick,
        .op (.m (.enqueueAndUpdate "go")), .tick, .op (.m (.enqueueAndUpdate "next")), .tick, .ret, .tick, .tick, .tick, .tick, .tick, .ret, .tick, .tick, .ret, .tick, .tick, .ret, .tick, .tick, .tick])).map
      (fun s => (decide (s.stack = [] ∧ .threw ∉ s.hist ∧ s.m.cur = "C" ∧ .begin 4 "m:B" true [0, 1] ∈ s.hist ∧ .begin 5 "m:C" true [0, 1] ∈ s.hist),
        decide (callsFor 4 s.hist = [(0, "m:B", true), (1, "m:B", true)] ∧ callsFor 5 s.hist = [(0, "m:C", true), (1, "m:C", true)] ∧ ran 1 "m:B" 8 s.hist = 1 ∧
          actsFor 10 s.hist = [(7, 1, "m:B", .entry)]))) = some (true, true) := by decide +kernel
  obtain ⟨s, h1, h2⟩ := Option.map_eq_some_iff.mp h
  simp only [Prod.mk.injEq, decide_eq_true_eq] at h2
  obtain ⟨⟨a1, a2, a3, a4, a5⟩, a6, a7, a8, a9⟩ := h2
  exact ⟨s, Reach.init.runOk _ h1, a1, a2, a3, a4, a5, a6, a7, a8, a9⟩

/-- **C91** fails: an observer that registers another observer while it is called makes the notification use an invalid iterator (undefined behaviour). -/
theorem C91_violation_register_in_observer : ∃ s, Reach (fun _ => false) exCfg (fun _ => "m") (fun _ _ => True) s ∧ s.bad = true ∧
    s.hist = [.op (.m (.registerObserver 0)), .op (.m .start), .begin 0 "m:A" true [0], .call 0 0 "m:A" true, .op (.m (.registerObserver 1))] := by
  have h : (run (fun _ => false) (St.init exCfg fun _ => "m") [.op (.m (.registerObserver 0)), .op (.m .start), .tick, .op (.m (.registerObserver 1)), .ret, .tick]).map (fun s => (s.bad, s.hist)) =
      some (true, [.op (.m (.registerObserver 0)), .op (.m .start), .begin 0 "m:A" true [0], .call 0 0 "m:A" true, .op (.m (.registerObserver 1))]) := by decide +kernel
  obtain ⟨s, h1, h2⟩ := Option.map_eq_some_iff.mp h
  obtain ⟨a1, a2⟩ := Prod.mk.inj h2
  exact ⟨s, Reach.init.run _ h1, a1, a2⟩

/-- **C91** fails: a periodic action that removes the actions of its own listener, as a user does to stop it, destroys the vector the loop is using. -/
theorem C91_violation_remove_in_action : ∃ s, Reach (fun _ => true) exCfg (fun _ => "m") (fun _ _ => True) s ∧ s.bad = true ∧
    (∃ id, .act id 0 "m:A" .each 5 ∈ s.hist) ∧ s.hist.getLast? = some (.op (.l 0 (.removeState "A"))) := by
  have h : (run (fun _ => true) (St.init exCfg fun _ => "m") [.op (.l 0 (.addPeriodic "A" 5)), .op (.m (.registerObserver 0)), .op (.m .start), .tick, .tick, .tick, .tick, .op (.l 0 (.removeState "A")), .ret, .tick]).map
      (fun s => (s.bad, decide (Ev.act 3 0 "m:A" .each 5 ∈ s.hist), s.hist.getLast?)) = some (true, true, some (.op (.l 0 (.removeState "A")))) := by decide +kernel
  obtain ⟨s, h1, h2⟩ := Option.map_eq_some_iff.mp h
  simp only [Prod.mk.injEq, decide_eq_true_eq] at h2
  exact ⟨s, Reach.init.run _ h1, h2.1, ⟨3, h2.2.1⟩, h2.2.2⟩

/-- **C91** fails: a one-off action that makes the machine enter its state again is called a second time from inside itself, and then the loop it was called from uses the vector that has been erased. -/
theorem C91_violation_one_off_reenters : ∃ s, Reach (fun _ => true) exCfg (fun _ => "m") (fun _ _ => True) s ∧ s.bad = true ∧ added (fun _ => "m") 0 "m:A" 5 s.hist = 1 ∧ ran 0 "m:A" 5 s.hist = 2 := by
  have h : (run (fun _ => true) (St.init exCfg fun _ => "m") [.op (.l 0 (.addOneOff "A" 5)), .op (.m (.registerObserver 0)), .op (.m .start), .tick, .tick, .op (.m (.enqueueAndUpdate "self")), .tick, .tick, .ret,
      .tick, .tick, .tick, .tick, .ret, .tick]).map (fun s => (s.bad, added (fun _ => "m") 0 "m:A" 5 s.hist, ran 0 "m:A" 5 s.hist)) = some (true, 1, 2) := by decide +kernel
  obtain ⟨s, h1, h2⟩ := Option.map_eq_some_iff.mp h
  simp only [Prod.mk.injEq] at h2
  exact ⟨s, Reach.init.run _ h1, h2⟩

/-- **C91** fails: a one-off action that throws is not removed (nor are those before it); it is called again at the next entry of the state. -/
theorem C91_violation_one_off_throws : ∃ s, Reach (fun _ => true) exCfg (fun _ => "m") Ok s ∧ s.bad = false ∧ added (fun _ => "m") 0 "m:A" 5 s.hist = 1 ∧ added (fun _ => "m") 0 "m:A" 6 s.hist = 1 ∧
    ran 0 "m:A" 5 s.hist = 2 ∧ ran 0 "m:A" 6 s.hist = 2 := by
  have h : (runOk (fun _ => true) (St.init exCfg fun _ => "m") [.op (.l 0 (.addOneOff "A" 6)), .op (.l 0 (.addOneOff "A" 5)), .op (.m (.registerObserver 0)), .op (.m .start), .tick, .tick, .ret, .tick, .throw,
      .op (.m (.enqueueAndUpdate "self")), .tick, .tick, .ret, .tick, .ret]).map (fun s => (s.bad, added (fun _ => "m") 0 "m:A" 5 s.hist, added (fun _ => "m") 0 "m:A" 6 s.hist, ran 0 "m:A" 5 s.hist, ran 0 "m:A" 6 s.hist)) =
      some (false, 1, 1, 2, 2) := by decide +kernel
  obtain ⟨s, h1, h2⟩ := Option.map_eq_some_iff.mp h
  simp only [Prod.mk.injEq] at h2
  exact ⟨s, Reach.init.runOk _ h1, h2⟩

/-- **C91** fails: an observer that throws keeps the observers after it from being told, although the machine is in the new state; nothing tells them later. -/
theorem C91_violation_observer_throws : ∃ s, Reach (fun _ => false) exCfg (fun _ => "m") Ok s ∧ s.bad = false ∧ s.stack = [] ∧ s.m.cur = "B" ∧ .begin 1 "m:B" true [0, 1] ∈ s.hist ∧
    callsFor 1 s.hist = [(0, "m:B", true)] := by
  have h : (runOk (fun _ => false) (St.init exCfg fun _ => "m") [.op (.m (.registerObserver 0)), .op (.m (.registerObserver 1)), .op (.m .start), .tick, .ret, .tick, .ret, .tick,
      .op (.m (.enqueueAndUpdate "go")), .tick, .throw]).map (fun s => (s.bad, decide (s.stack = []), s.m.cur, decide (Ev.begin 1 "m:B" true [0, 1] ∈ s.hist), decide (callsFor 1 s.hist = [(0, "m:B", true)]))) =
      some (false, true, "B", true, true) := by decide +kernel
  obtain ⟨s, h1, h2⟩ := Option.map_eq_some_iff.mp h
  simp only [Prod.mk.injEq, decide_eq_true_eq] at h2
  exact ⟨s, Reach.init.runOk _ h1, h2⟩

end Verif.FsmR
