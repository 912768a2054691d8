import Verif.Lemmas.StateMachine

/-!
C32-C36: the state machine and its listener.
-/

namespace Verif.Fsm
open Verif


theorem after_table (c : Cfg) (ops : List Op) : (after c ops).table = buildTable c.states := (runOps_static _ ops).2.1
theorem after_id (c : Cfg) (ops : List Op) : (after c ops).id = c.id := (runOps_static _ ops).1
theorem after_initial (c : Cfg) (ops : List Op) : (after c ops).initial = Spec.initial c := by
  rw [← initialOf_eq]; exact (runOps_static _ ops).2.2

/-- **C32**.  After any history, the accepted events are: those consumed before the last reset, those consumed since, and those still
queued; and the current state is the one the automaton of the configuration reaches from the initial state with the second part.
Without reset the first part is empty. -/
theorem C32_follows_table (c : Cfg) (ops : List Op) :
    ∃ old done, Spec.accepted false ops = old ++ done ++ (after c ops).queue ∧
      (after c ops).cur = Spec.exec c (Spec.initial c) done ∧ (.reset ∉ ops → old = []) := by
  obtain ⟨o, d, h1, h2, h3⟩ := follows c ops (create c) rfl [] [] rfl
  refine ⟨o, d, ?_, ?_, h3⟩
  · have e : Spec.accepted (create c).started ops = o ++ d ++ (runOps (create c) ops).1.queue := by
      rw [← h1]; simp [create]
    exact e
  · have : (create c).initial = Spec.initial c := initialOf_eq c
    rw [← this]; exact h2

/-- **C32**, with resets: since the last `reset` the machine has followed the table from the initial state with the events that were queued at the
reset and those accepted after it, in order, up to the ones that are queued now. -/
theorem C32_since_reset (c : Cfg) (pre post : List Op) (hr : .reset ∉ post) :
    ∃ done, (after c pre).queue ++ Spec.accepted false post = done ++ (after c (pre ++ .reset :: post)).queue ∧
      (after c (pre ++ .reset :: post)).cur = Spec.exec c (Spec.initial c) done := by
  have hi := after_initial c pre
  have ht := after_table c pre
  have ha : after c (pre ++ .reset :: post) = (runOps (step (after c pre) .reset).1 post).1 := by
    simp [after, runOps_append, runOps]
  obtain ⟨o, d, h1, h2, h3⟩ := follows c post (step (after c pre) .reset).1 (by simpa [step] using ht) [] [] (by simp [step, Spec.exec])
  have ho := h3 hr
  subst ho
  refine ⟨d, ?_, ?_⟩
  · rw [ha]; simpa [step] using h1
  · rw [ha, h2, ← hi]; rfl

/-- A history with a reset in which an event accepted before it is consumed after it. -/
theorem C32_example_reset :
    let c : Cfg := ⟨"m", [⟨"A", [⟨"go", "B"⟩]⟩, ⟨"B", [⟨"go", "C"⟩]⟩, ⟨"C", []⟩]⟩
    (after c [.start, .enqueue "go", .update, .enqueue "x", .enqueue "go", .reset, .start, .update]).cur = "B" := by decide +kernel

/-- **C33**.  An `update` in a declared state either finds no event that matches, drops them all and stays; or takes the first event
that matches, drops the ones before it, keeps the ones after it, and enters the destination of the first transition declared for it. -/
theorem C33_one_transition (c : Cfg) (ops : List Op) (hs : (after c ops).started = true)
    (hd : (Spec.decl c (after c ops).cur).isSome) :
    ((∀ e ∈ (after c ops).queue, Spec.delta c (after c ops).cur e = none) ∧ (after c (ops ++ [.update])).cur = (after c ops).cur ∧
      (after c (ops ++ [.update])).queue = []) ∨
    ∃ pre e rest d, (after c ops).queue = pre ++ e :: rest ∧ (∀ x ∈ pre, Spec.delta c (after c ops).cur x = none) ∧
      Spec.delta c (after c ops).cur e = some d ∧ (after c (ops ++ [.update])).cur = d ∧ (after c (ops ++ [.update])).queue = rest := by
  have hstep : after c (ops ++ [.update]) = (update (after c ops)).1 := by
    simp only [after, runOps_append, runOps, step]
  rw [hstep]
  have ht := after_table c ops
  generalize after c ops = m at *
  obtain ⟨st, hst⟩ := Option.isSome_iff_exists.mp hd
  have htr : m.table m.cur = some st.transitions := by
    rw [ht, buildTable_decl c.states c.id]; exact congrArg _ hst
  have hdl : ∀ e, Spec.delta c m.cur e = firstMatch e st.transitions := by
    intro e; rw [delta_eq, ← ht, htr]; rfl
  simp only [update, hs, if_true, htr]
  rcases consume_spec st.transitions m.cur m.queue with ⟨h1, h2⟩ | ⟨pre, e, rest, d, h1, h2, h3, h4⟩
  · left
    rw [h2]
    exact ⟨fun e he => by rw [hdl, h1 e he], rfl, rfl⟩
  · right
    rw [h4]
    exact ⟨pre, e, rest, d, h1, fun x hx => by rw [hdl, h2 x hx], by rw [hdl, h3], rfl, rfl⟩

/-- **C33**: an `update` while stopped, or in a state that is not declared, changes nothing at all. -/
theorem C33_otherwise_nothing (c : Cfg) (ops : List Op)
    (h : (after c ops).started = false ∨ Spec.decl c (after c ops).cur = none) :
    step (after c ops) .update = (after c ops, []) := by
  have ht := after_table c ops
  generalize after c ops = m at *
  simp only [step, update]
  rcases h with h | h
  · simp [h]
  · have htr : m.table m.cur = none := by
      rw [ht, buildTable_decl c.states c.id]; exact congrArg _ h
    split
    · rw [htr]
    · rfl

/-- **C32** (nothing is left behind): with every destination declared, once the machine has been updated as often as there are events
queued, without reset, the current state is the one reached with all accepted events. -/
theorem C32_drained (c : Cfg) (ops : List Op) (hr : .reset ∉ ops) (hs : (after c ops).started = true)
    (hd : ∀ q, q = Spec.initial c ∨ (∃ st ∈ c.states, ∃ t ∈ st.transitions, t.dest = q) → (Spec.decl c q).isSome) (n : Nat)
    (hn : (after c ops).queue.length ≤ n) :
    (after c (ops ++ List.replicate n .update)).cur = Spec.exec c (Spec.initial c) (Spec.accepted false ops) ∧
      (after c (ops ++ List.replicate n .update)).queue = [] := by
  have hreach : ∀ w, (Spec.decl c (Spec.exec c (Spec.initial c) w)).isSome := by
    intro w
    have : ∀ q, (Spec.decl c q).isSome → (Spec.decl c (Spec.exec c q w)).isSome := by
      induction w with
      | nil => intro q h; exact h
      | cons e w ih =>
        intro q h
        refine ih _ ?_
        simp only [Spec.delta]
        obtain ⟨st, hst⟩ := Option.isSome_iff_exists.mp h
        simp only [hst]
        cases hf : st.transitions.find? (fun t => decide (t.event = e)) with
        | none => simpa using h
        | some t =>
          refine hd _ (Or.inr ⟨st, ?_, t, List.mem_of_find?_eq_some hf, rfl⟩)
          exact (List.mem_filter.mp (List.mem_of_getLast? hst)).1
    exact this _ (hd _ (Or.inl rfl))
  have acc : ∀ b ops n, Spec.accepted b (ops ++ List.replicate n .update) = Spec.accepted b ops := by
    intro b ops n
    induction ops generalizing b with
    | nil =>
      induction n with
      | zero => rfl
      | succ n ih => simpa [List.replicate_succ, Spec.accepted] using ih
    | cons op ops ih => cases op <;> simp [Spec.accepted, ih]
  have drain : ∀ n ops, .reset ∉ ops → (after c ops).started = true → (after c ops).queue.length ≤ n →
      (after c (ops ++ List.replicate n .update)).queue = [] := by
    intro n
    induction n with
    | zero => intro ops _ _ h; simpa using h
    | succ n ih =>
      intro ops hr hs hn
      have hst : (after c (ops ++ [.update])).started = true := by
        have : after c (ops ++ [.update]) = (update (after c ops)).1 := by
          simp only [after, runOps_append, runOps, step]
        rw [this]
        obtain ⟨_, _, _, h⟩ := update_spec c (after c ops) (after_table c ops)
        rw [h]; exact hs
      have e : ops ++ List.replicate (n + 1) Op.update = (ops ++ [.update]) ++ List.replicate n .update := by
        simp [List.replicate_succ]
      rw [e]
      refine ih _ (by simp [hr]) hst ?_
      obtain ⟨o, d, -, h2, -⟩ := C32_follows_table c ops
      have hdc : (Spec.decl c (after c ops).cur).isSome := by rw [h2]; exact hreach d
      rcases C33_one_transition c ops hs hdc with ⟨-, -, h⟩ | ⟨pre, e, rest, d, h1, -, -, -, h⟩
      · rw [h]; simp
      · rw [h]; rw [h1] at hn; simp at hn; omega
  have hq := drain n ops hr hs hn
  refine ⟨?_, hq⟩
  obtain ⟨o, d, h1, h2, h3⟩ := C32_follows_table c (ops ++ List.replicate n .update)
  have ho := h3 (by simp [hr])
  rw [acc, hq, ho] at h1
  rw [h2, h1]; simp

/-- **C34**.  Every effective `update` (started, in a declared state) calls each registered observer exactly once, in the order of
registration, with the resulting state; and the flag is true exactly if some queued event matched. -/
theorem C34_update_notifies (c : Cfg) (ops : List Op) (hs : (after c ops).started = true)
    (hd : (Spec.decl c (after c ops).cur).isSome) :
    ∃ ch : Bool, (step (after c ops) .update).2 =
        (after c ops).observers.map (fun o => ⟨o, c.id ++ ":" ++ (after c (ops ++ [.update])).cur, ch⟩) ∧
      (ch = true ↔ ∃ e ∈ (after c ops).queue, Spec.delta c (after c ops).cur e ≠ none) := by
  have hstep : after c (ops ++ [.update]) = (update (after c ops)).1 := by
    simp only [after, runOps_append, runOps, step]
  rw [hstep]
  have ht := after_table c ops
  have hid := after_id c ops
  generalize after c ops = m at *
  obtain ⟨st, hst⟩ := Option.isSome_iff_exists.mp hd
  have htr : m.table m.cur = some st.transitions := by
    rw [ht, buildTable_decl c.states c.id]; exact congrArg _ hst
  have hdl : ∀ e, Spec.delta c m.cur e = firstMatch e st.transitions := by
    intro e; rw [delta_eq, ← ht, htr]; rfl
  simp only [step, update, hs, if_true, htr]
  rcases consume_spec st.transitions m.cur m.queue with ⟨h1, h2⟩ | ⟨pre, e, rest, d, h1, h2, h3, h4⟩
  · refine ⟨false, by rw [h2]; simp [notify, hid], ?_⟩
    simp only [Bool.false_eq_true, false_iff]
    rintro ⟨e, he, h⟩
    exact h (by rw [hdl, h1 e he])
  · refine ⟨true, by rw [h4]; simp [notify, hid], ?_⟩
    simp only [true_iff]
    exact ⟨e, by simp [h1], by rw [hdl, h3]; simp⟩

/-- **C34**: while the machine is stopped, no call other than `start` notifies anybody. -/
theorem C34_stopped_is_silent (c : Cfg) (ops : List Op) (hs : (after c ops).started = false) (op : Op) (ho : op ≠ .start) :
    (step (after c ops) op).2 = [] := by
  generalize after c ops = m at *
  cases op <;> simp [step, update, enqueue, hs] at ho ⊢

/-- `start` notifies every observer once with the current state and the flag set, whether or not the state is new to them. -/
theorem C34_start_notifies (c : Cfg) (ops : List Op) :
    (step (after c ops) .start).2 = (after c ops).observers.map (fun o => ⟨o, c.id ++ ":" ++ (after c ops).cur, true⟩) := by
  simp [step, notify, after_id]

/-- The observers are those registered since `unregisterObservers` was last called. -/
theorem C34_observers (c : Cfg) (ops : List Op) :
    (after c ops).observers =
      ops.foldl (fun l op => match op with | .registerObserver o => l ++ [o] | .unregisterObservers => [] | _ => l) [] := by
  have : ∀ (m : M), (runOps m ops).1.observers =
      ops.foldl (fun l op => match op with | .registerObserver o => l ++ [o] | .unregisterObservers => [] | _ => l) m.observers := by
    intro m
    induction ops generalizing m with
    | nil => rfl
    | cons op ops ih =>
      simp only [runOps, ih, List.foldl_cons]
      congr 1
      cases op <;> simp [step, update, enqueue] <;> (repeat' split) <;> simp
  exact this _

/-- **C35**: events enqueued while the machine is not started have no effect at all. -/
theorem C35_stopped_accepts_nothing (c : Cfg) (ops : List Op) (hs : (after c ops).started = false) (e : String) :
    step (after c ops) (.enqueue e) = (after c ops, []) ∧ step (after c ops) (.enqueueAndUpdate e) = (after c ops, []) := by
  generalize after c ops = m at *
  simp [step, update, enqueue, hs]

/-- **C35**: `reset` stops the machine in the initial state.
Missing: the queue is not emptied (C35_reset_keeps_events). -/
theorem C35_reset_partial (c : Cfg) (ops : List Op) :
    (after c (ops ++ [.reset])).cur = Spec.initial c ∧ (after c (ops ++ [.reset])).started = false := by
  have : after c (ops ++ [.reset]) = (step (after c ops) .reset).1 := by
    simp only [after, runOps_append, runOps]
  rw [this]
  exact ⟨after_initial c ops, rfl⟩

/-- **C35**: if there is a state and every destination is declared, the machine is in a declared state after every history. -/
theorem C35_always_declared (c : Cfg) (hc : Spec.Closed c) (hne : c.states ≠ []) (ops : List Op) :
    ∃ st ∈ c.states, st.id = (after c ops).cur := by
  obtain ⟨o, d, -, h2, -⟩ := C32_follows_table c ops
  rw [h2]
  have hinit : ∃ st ∈ c.states, st.id = Spec.initial c := by
    simp only [Spec.initial]
    cases h : c.states.find? (fun st => decide (st.id ≠ "")) with
    | some st => exact ⟨st, List.mem_of_find?_eq_some h, rfl⟩
    | none =>
      cases hs : c.states with
      | nil => exact absurd hs hne
      | cons st l =>
        refine ⟨st, by simp, ?_⟩
        have := (List.find?_eq_none.mp h) st (by simp [hs])
        simpa using this
  have : ∀ q, (∃ st ∈ c.states, st.id = q) → ∃ st ∈ c.states, st.id = Spec.exec c q d := by
    clear h2
    induction d with
    | nil => intro q h; exact h
    | cons e d ih =>
      intro q h
      refine ih _ ?_
      simp only [Spec.delta]
      split
      · exact h
      · next st hst =>
        cases hf : st.transitions.find? (fun t => decide (t.event = e)) with
        | none => simpa using h
        | some t =>
          have hm : st ∈ c.states := (List.mem_filter.mp (List.mem_of_getLast? hst)).1
          simpa using hc st hm t (List.mem_of_find?_eq_some hf)
  exact this _ hinit

/-- **C35** fails for events accepted before a reset: they are still in the queue and drive the machine after it is started again. -/
theorem C35_reset_keeps_events :
    (runOps (create ⟨"m", [⟨"A", [⟨"go", "B"⟩]⟩, ⟨"B", []⟩]⟩) [.start, .enqueue "go", .reset, .start, .update]).1.cur = "B" := by
  decide +kernel

/-- A machine that has entered an undeclared state stays there whatever is done, until `reset`; nobody is told by `update`. -/
theorem C35_undeclared_state_is_stuck (c : Cfg) (ops more : List Op) (hd : Spec.decl c (after c ops).cur = none) (hr : .reset ∉ more) :
    (after c (ops ++ more)).cur = (after c ops).cur := by
  induction more using List.reverseRecOn with
  | nil => simp
  | append_singleton l op ih =>
    have ih := ih (by intro h; exact hr (by simp [h]))
    rw [← List.append_assoc]
    have hstep : after c ((ops ++ l) ++ [op]) = (step (after c (ops ++ l)) op).1 := by
      simp only [after, runOps_append (create c) (ops ++ l), runOps]
    rw [hstep]
    have ht := after_table c (ops ++ l)
    have hn : (after c (ops ++ l)).table (after c (ops ++ l)).cur = none := by
      rw [ht, ih, buildTable_decl c.states c.id]
      exact congrArg (Option.map _) hd
    rw [← ih]
    generalize after c (ops ++ l) = m at *
    cases op with
    | reset => exact absurd (by simp) hr
    | update => simp only [step, update, hn]; split <;> rfl
    | enqueue e => simp only [step, enqueue]; split <;> rfl
    | enqueueAndUpdate e =>
      simp only [step, enqueue]
      split
      · simp only [update, hn]; split <;> rfl
      · simp only [update, hn]; split <;> rfl
    | _ => rfl

/-- **C34** fails for the later observers if an earlier one calls `enqueueAndUpdate` from inside its notification: on entering B, observer 0
sends "next", which leads to C.  Observer 1 is told of C first and of B last, although the machine is in C. -/
theorem C34_reentrant_observer_stale :
    (fun r : M × List Note => (r.1.cur, r.2.filter (fun n => n.obs = 1)))
      (updateR (fun o s ch => if o = 0 ∧ s = "m:B" ∧ ch then ["next"] else []) 9
        (after ⟨"m", [⟨"A", [⟨"go", "B"⟩]⟩, ⟨"B", [⟨"next", "C"⟩]⟩, ⟨"C", []⟩]⟩
          [.registerObserver 0, .registerObserver 1, .start, .enqueue "go"])) =
    ("C", [⟨1, "m:C", true⟩, ⟨1, "m:B", true⟩]) := by decide +kernel

/-- If no observer reacts, the two models of `update` agree. -/
theorem updateR_no_reaction (m : M) (n : Nat) : updateR (fun _ _ _ => []) (n + 1) m = update m := by
  have h : ∀ (l : List Nat) (m : M) (s : String) (ch : Bool),
      notifyR (updateR (fun _ _ _ => []) n) (fun _ _ _ => []) s ch m l = (m, l.map (fun o => ⟨o, s, ch⟩)) := by
    intro l
    induction l with
    | nil => intros; rfl
    | cons o l ih => intro m s ch; simp [notifyR, ih, reactR]
  simp only [updateR, update]
  split
  · split
    · simp only [h, notify]
    · rfl
  · rfl

/-! C36: the listener -/

def lafter (machine : String) (ops : List LOp) : L := (lrun (L.init machine) ops).1

theorem lrun_append (l : L) (a b : List LOp) :
    lrun l (a ++ b) = ((lrun (lrun l a).1 b).1, (lrun l a).2 ++ (lrun (lrun l a).1 b).2) := by
  induction a generalizing l with
  | nil => simp [lrun]
  | cons op a ih => simp [lrun, ih]

theorem lafter_snoc (machine : String) (ops : List LOp) (op : LOp) : lafter machine (ops ++ [op]) = (lstep (lafter machine ops) op).1 := by
  simp [lafter, lrun_append, lrun]

theorem lafter_spec (machine : String) (ops : List LOp) (s : String) :
    (lafter machine ops).machine = machine ∧ (lafter machine ops).actions s = Spec.entry machine s ops.reverse ∧
      (lafter machine ops).oneOff s = Spec.once machine s ops.reverse ∧
      (lafter machine ops).periodic s = Spec.each machine s ops.reverse := by
  induction ops using List.reverseRecOn with
  | nil => simp [lafter, lrun, L.init, Spec.entry, Spec.once, Spec.each]
  | append_singleton ops op ih =>
    rw [lafter_snoc]
    obtain ⟨h1, h2, h3, h4⟩ := ih
    generalize lafter machine ops = l at *
    subst h1
    simp only [List.reverse_append, List.reverse_cons, List.reverse_nil, List.nil_append, List.singleton_append]
    cases op with
    | notified s' ch =>
      cases ch with
      | false => simp [lstep, Spec.entry, Spec.once, Spec.each, h2, h3, h4]
      | true =>
        simp only [lstep, if_true, Spec.entry, Spec.once, Spec.each, h2, h4, upd_apply, true_and, and_true]
        by_cases e : s = s'
        · simp [e]
        · have : ¬ s' = s := fun x => e x.symm
          simp [e, this, h3]
    | removeAll => simp [lstep, Spec.entry, Spec.once, Spec.each, h2, h3]
    | removeState s' =>
      simp only [lstep, Spec.entry, Spec.once, Spec.each, h2, h3, upd_apply, true_and]
      by_cases e : s = completeName l.machine s'
      · simp [e]
      · have : ¬ completeName l.machine s' = s := fun x => e x.symm
        simp [e, this, h4]
    | addAction s' a =>
      simp only [lstep, Spec.entry, Spec.once, Spec.each, h3, h4, upd_apply, true_and, and_true]
      by_cases e : s = completeName l.machine s'
      · subst e; simp [h2]
      · have : ¬ completeName l.machine s' = s := fun x => e x.symm
        simp [e, this, h2]
    | addOneOff s' a =>
      simp only [lstep, Spec.entry, Spec.once, Spec.each, h2, h4, upd_apply, true_and, and_true]
      by_cases e : s = completeName l.machine s'
      · subst e; simp [h3]
      · have : ¬ completeName l.machine s' = s := fun x => e x.symm
        simp [e, this, h3]
    | addPeriodic s' a =>
      simp only [lstep, Spec.entry, Spec.once, Spec.each, h2, h3, upd_apply, true_and]
      by_cases e : s = completeName l.machine s'
      · subst e; simp [h4]
      · have : ¬ completeName l.machine s' = s := fun x => e x.symm
        simp [e, this, h4]

/-- **C36**.  The actions run on a notification, after any history of registrations, removals and notifications: on a change, the one-off
actions registered for the state since it was last entered, then its entry actions; and always its periodic actions; each once
and in the order of registration; all are given the state name, and no action of another state is run. -/
theorem C36_actions_run (machine : String) (ops : List LOp) (s : String) (changed : Bool) :
    (lstep (lafter machine ops) (.notified s changed)).2 =
      ((if changed then Spec.once machine s ops.reverse ++ Spec.entry machine s ops.reverse else []) ++
        Spec.each machine s ops.reverse).map (·, s) := by
  obtain ⟨-, h2, h3, h4⟩ := lafter_spec machine ops s
  cases changed <;> simp [lstep, h2, h3, h4]

/-- **C36**: one-off actions are forgotten once they have run. -/
theorem C36_one_off_once (machine : String) (ops : List LOp) (s : String) :
    Spec.once machine s (ops ++ [LOp.notified s true]).reverse = [] := by simp [Spec.once]

/-- Strings with a common prefix. -/
theorem str_append_left_inj {a b c : String} (h : a ++ b = a ++ c) : b = c := by
  have := congrArg String.toList h
  simp only [String.toList_append, List.append_cancel_left_eq] at this
  exact String.toList_inj.mp this

/-- **C36**: different states of one machine have different names, so their actions are kept apart. -/
theorem C36_names_distinct (machine s s' : String) : completeName machine s = completeName machine s' ↔ s = s' := by
  constructor
  · intro h
    simp only [completeName] at h
    split at h
    · exact h
    · exact str_append_left_inj h
  · intro h; rw [h]

/-- **C36**: a listener with the id of the state machine is notified by it under exactly the names it uses, provided the id is not
empty: registering its observer function connects the two. -/
theorem C36_names_agree (c : Cfg) (hid : c.id ≠ "") (ops : List Op) (op : Op) (n : Note) (hn : n ∈ (step (after c ops) op).2) :
    n.state = completeName c.id (step (after c ops) op).1.cur := by
  have hm := after_id c ops
  generalize after c ops = m at *
  simp only [completeName, if_neg hid]
  cases op with
  | start => simp only [step, notify, List.mem_map] at hn ⊢; obtain ⟨o, -, rfl⟩ := hn; simp [hm]
  | update =>
    simp only [step, update] at hn ⊢
    (repeat' split at hn)
    · next h1 _ _ h2 => simp only [notify, List.mem_map] at hn; obtain ⟨o, -, rfl⟩ := hn; simp [hm, h1]
    · cases hn
    · cases hn
  | enqueueAndUpdate e =>
    simp only [step] at hn ⊢
    have hm' : (enqueue m e).id = c.id := by rw [← hm]; simp only [enqueue]; split <;> rfl
    generalize enqueue m e = m' at *
    simp only [update] at hn ⊢
    (repeat' split at hn)
    · next h1 _ _ h2 => simp only [notify, List.mem_map] at hn; obtain ⟨o, -, rfl⟩ := hn; simp [hm', h1]
    · cases hn
    · cases hn
  | _ => simp [step] at hn

/-- With an empty machine id the names do not agree: the machine notifies `":A"`, the listener has its action under `"A"`; it is
never run. -/
theorem C36_empty_id_never_matches (ops : List LOp) (s : String) (a : Nat) (changed : Bool)
    (h : ∀ op ∈ ops, op = .addAction s a ∨ op = .addOneOff s a ∨ op = .addPeriodic s a) :
    (lstep (lafter "" ops) (.notified ("" ++ ":" ++ s) changed)).2 = [] := by
  rw [C36_actions_run]
  have hne : ¬ s = "" ++ ":" ++ s := by
    intro e
    have := congrArg (fun x => x.toList.length) e
    simp [String.toList_append] at this
  have : ∀ h : List LOp, (∀ op ∈ h, op = .addAction s a ∨ op = .addOneOff s a ∨ op = .addPeriodic s a) →
      Spec.once "" ("" ++ ":" ++ s) h = [] ∧ Spec.entry "" ("" ++ ":" ++ s) h = [] ∧ Spec.each "" ("" ++ ":" ++ s) h = [] := by
    intro h hh
    induction h with
    | nil => simp [Spec.once, Spec.entry, Spec.each]
    | cons op h ih =>
      obtain ⟨i1, i2, i3⟩ := ih (fun op ho => hh op (by simp [ho]))
      rcases hh op (by simp) with e | e | e <;> subst e <;> simp only [Spec.once, Spec.entry, Spec.each, completeName, if_true, if_neg hne, i1, i2, i3, and_self]
  obtain ⟨i1, i2, i3⟩ := this ops.reverse (by simpa using h)
  rw [i1, i2, i3]
  cases changed <;> simp

/-- `removeActions` does not remove entry and one-off actions. -/
theorem C36_remove_keeps_entry_actions :
    (lstep (lafter "m" [.addAction "A" 1, .addOneOff "A" 2, .addPeriodic "A" 3, .removeState "A", .removeAll]) (.notified "m:A" true)).2 =
      [(2, "m:A"), (1, "m:A")] := by decide +kernel

/-! The hypotheses are met. -/

def exCfg : Cfg := ⟨"door", [⟨"closed", [⟨"open", "ajar"⟩, ⟨"lock", "locked"⟩]⟩, ⟨"ajar", [⟨"close", "closed"⟩]⟩, ⟨"locked", [⟨"unlock", "closed"⟩]⟩]⟩

example : Spec.Closed exCfg := by
  intro st hst t ht
  simp [exCfg] at hst
  rcases hst with rfl | rfl | rfl <;> simp at ht
  · rcases ht with rfl | rfl <;> simp [exCfg]
  · subst ht; simp [exCfg]
  · subst ht; simp [exCfg]

example : (after exCfg [.registerObserver 7, .start, .enqueue "unlock", .enqueue "open", .enqueue "close"]).started = true ∧
    (Spec.decl exCfg (after exCfg [.registerObserver 7, .start, .enqueue "unlock", .enqueue "open", .enqueue "close"]).cur).isSome ∧
    (after exCfg [.registerObserver 7, .start, .enqueue "unlock", .enqueue "open", .enqueue "close", .update]).cur = "ajar" ∧
    (after exCfg [.registerObserver 7, .start, .enqueue "unlock", .enqueue "open", .enqueue "close", .update]).queue = ["close"] := by
  decide +kernel

example : ∀ q, q = Spec.initial exCfg ∨ (∃ st ∈ exCfg.states, ∃ t ∈ st.transitions, t.dest = q) → (Spec.decl exCfg q).isSome := by
  intro q h
  have : q = "closed" ∨ q = "ajar" ∨ q = "locked" := by
    rcases h with h | ⟨st, hst, t, ht, h⟩
    · left; rw [h]; decide +kernel
    · simp [exCfg] at hst
      rcases hst with rfl | rfl | rfl <;> simp at ht
      · rcases ht with rfl | rfl <;> simp [← h]
      · subst ht; simp [← h]
      · subst ht; simp [← h]
  rcases this with rfl | rfl | rfl <;> decide +kernel

example : Spec.decl ⟨"m", [⟨"A", [⟨"go", "nowhere"⟩]⟩]⟩ (after ⟨"m", [⟨"A", [⟨"go", "nowhere"⟩]⟩]⟩ [.start, .enqueueAndUpdate "go"]).cur = none := by
  decide +kernel

end Verif.Fsm
