import Verif.Lemmas.Races
import Verif.Props.Locks

/-!
**C85**: the mutexes of the library protect its data.
-/

namespace Verif.Locks
open Verif

/-- **C85**: no data race on `x` in any program that takes care of the functions that access `x` without its mutex: it does not call them while another thread is in a
function that will access `x` in a conflicting way, nor such a function while another thread is in one of them.
Missing: without that care there are races, see the findings below. -/
theorem C85_no_race_partial {x : Var} {s : St} (h : Reach (Careful x) s) : ¬ Race s x := by
  rintro ⟨t, u, htu, w, r, st, w', r', st', e, e', hw⟩
  have ha := h.apart
  have hi := h.hinv
  have ht : (.acc x w :: r) ∈ s.stack t := by rw [e]; exact List.mem_cons_self ..
  have hu : (.acc x w' :: r') ∈ s.stack u := by rw [e']; exact List.mem_cons_self ..
  have hac : ∀ v q, v ∈ accesses x (.acc x v :: q) := by intro v q; simp [accesses]
  by_cases hg : ∀ m, guardOf x = some m → m ∉ pend r
  · have := ha t u htu _ ht _ hu w (by simp only [unguarded]; rw [if_pos ⟨trivial, hg⟩]; exact List.mem_cons_self ..) w' (hac w' r')
    rw [this] at hw; cases hw
  · by_cases hg' : ∀ m, guardOf x = some m → m ∉ pend r'
    · have := ha u t (Ne.symm htu) _ hu _ ht w' (by simp only [unguarded]; rw [if_pos ⟨trivial, hg'⟩]; exact List.mem_cons_self ..) w (hac w r)
      rw [Bool.or_comm, this] at hw; cases hw
    · obtain ⟨m, hm⟩ := not_forall.mp hg
      obtain ⟨m', hm'⟩ := not_forall.mp hg'
      simp only [Classical.not_imp, Decidable.not_not] at hm hm'
      have hmm : m' = m := by
        have := hm'.1.symm.trans hm.1
        exact Option.some.inj this
      rw [hmm] at hm'
      have h1 := (hi.own t m).mpr (by rw [e]; simp [flat, pend, hm.2])
      have h2 := (hi.own u m).mpr (by rw [e']; simp [flat, pend, hm'.2])
      rw [h1] at h2
      exact htu (Option.some.inj h2)

/-- **C85**: the functions in the table `unprotected`, and only they, access `x` without its mutex; a program that does not call those of `x` has no race on `x`, whatever
else its threads and callbacks do.
Missing: see `C85_no_race_partial`. -/
theorem C85_protected_functions_partial {x : Var} {s : St} (h : Reach (fun _ _ f => unprotected x f = false) s) : ¬ Race s x :=
  C85_no_race_partial (h.careful fun _ _ f hf => by
    by_contra hne
    rw [(unguarded_code x f).mp hne] at hf; cases hf).1

/-- **C85**: … that table is exact. -/
theorem C85_table_exact (x : Var) (f : Fn) : unguarded x (code f) ≠ [] ↔ unprotected x f = true := unguarded_code x f

/-- **C85**: environments in memory (`MemEnv`), the topics of ZMQ pollers, the ids of listeners, the event of a cache listener and the list of services are protected in every program. -/
theorem C85_always_protected {x : Var} (hx : (∃ n, x = .props n) ∨ (∃ p, x = .topics p) ∨ (∃ e, x = .lastId e) ∨ (∃ l, x = .cached l) ∨ ∃ c, x = .services c) {s : St}
    (h : Reach Anything s) : ¬ Race s x := by
  refine C85_protected_functions_partial (h.mono fun _ _ f _ => ?_)
  rcases hx with ⟨n, rfl⟩ | ⟨n, rfl⟩ | ⟨n, rfl⟩ | ⟨n, rfl⟩ | ⟨n, rfl⟩ <;> cases f <;> rfl

/-- **C85**: the items of a queue are protected in every program that does not move from it.
Missing: moving from a queue, see the findings. -/
theorem C85_queue_items_partial {q : Nat} {s : St} (h : Reach (fun _ _ f => f ≠ .qMove q ∧ ∀ a, f ≠ .qMoveAssign a q) s) : ¬ Race s (.items q) := by
  refine C85_protected_functions_partial (h.mono fun _ _ f hf => ?_)
  cases f with
  | qMove b => simpa [unprotected] using hf.1
  | qMoveAssign a b =>
    have := hf.2 a
    simp only [unprotected, Bool.and_eq_false_iff, beq_eq_false_iff_ne]
    exact Or.inl fun e => this (by rw [e])
  | _ => rfl

/-- **C85**: the listeners of an emitter: if they are changed (registered, removed, a once listener called) only while no other thread is in a function that uses them, and
not used by others during a change, there is no race; emissions of several threads at the same time are allowed.
Missing: changes during emissions, see the findings. -/
theorem C85_exclusive_changes_partial {x : Var} {s : St}
    (h : Reach (fun s t f => ∀ u, u ≠ t → ∀ fr ∈ s.stack u, (true ∈ accesses x (code f) → accesses x fr = []) ∧ (accesses x (code f) ≠ [] → true ∉ accesses x fr)) s) :
    ¬ Race s x := by
  refine C85_no_race_partial (h.mono fun s t f hf u hu fr hfr => ⟨fun w hw w' hw' => ?_, fun w hw w' hw' => ?_⟩)
  · obtain ⟨h1, h2⟩ := hf u hu fr hfr
    have hw := unguarded_sub hw
    cases w
    · cases w'
      · rfl
      · exact absurd hw' (h2 (List.ne_nil_of_mem hw))
    · rw [h1 hw] at hw'; cases hw'
  · obtain ⟨h1, h2⟩ := hf u hu fr hfr
    have hw' := unguarded_sub hw'
    cases w
    · cases w'
      · rfl
      · exact absurd hw' (h2 (List.ne_nil_of_mem hw))
    · rw [h1 hw] at hw'; cases hw'

/-! ### findings -/

/-- The access a thread is about to make. -/
def nextAccess (s : St) (t : Nat) : Option (Var × Bool) :=
  match s.stack t with
  | (.acc x w :: _) :: _ => some (x, w)
  | _ => none

theorem race_of_run {as : List Act} {x : Var} {w w' : Bool} (hr : (run St.init as).map (fun s => (nextAccess s 0, nextAccess s 1)) = some (some (x, w), some (x, w')))
    (hw : (w || w') = true) : ∃ s, Reach Anything s ∧ Race s x := by
  obtain ⟨s, hs, he⟩ := Option.map_eq_some_iff.mp hr
  simp only [Prod.mk.injEq] at he
  have key : ∀ t v, nextAccess s t = some (x, v) → ∃ r st, s.stack t = (.acc x v :: r) :: st := by
    intro t v h
    simp only [nextAccess] at h
    split at h
    · rename_i r st e
      cases h
      exact ⟨r, st, e⟩
    · cases h
  obtain ⟨r, st, e⟩ := key 0 w he.1
  obtain ⟨r', st', e'⟩ := key 1 w' he.2
  exact ⟨s, Reach.of_run .init hs, 0, 1, by omega, w, r, st, w', r', st', e, e', hw⟩

/-- Finding against **C85**: one thread emits (it reads the number of listeners before it locks), another registers a listener. -/
theorem C85_violation_emit_and_register : ∃ s, Reach Anything s ∧ Race s (.listeners 1) :=
  race_of_run (as := [.call 0 (.emit 1 [false]), .call 1 (.on 1 none), .step 1, .step 1, .ret 1]) (w := false) (w' := true) (by decide +kernel) rfl

/-- Finding against **C85**: one thread emits, another removes a listener. -/
theorem C85_violation_emit_and_remove : ∃ s, Reach Anything s ∧ Race s (.listeners 1) :=
  race_of_run (as := [.call 0 (.emit 1 []), .call 1 (.removeListener 1 none), .step 1, .step 1]) (w := false) (w' := true) (by decide +kernel) rfl

/-- Finding against **C85**: two threads emit, and one of them has called a once listener, which it removes; nobody else registers or removes anything. -/
theorem C85_violation_two_emissions_with_once : ∃ s, Reach Anything s ∧ Race s (.listeners 1) :=
  race_of_run (as := [.call 1 (.emit 1 [true]), .step 1, .step 1, .step 1, .step 1, .ret 1, .step 1, .step 1, .call 0 (.emit 1 [])]) (w := false) (w' := true)
    (by decide +kernel) rfl

/-- Finding against **C85**: the statistics of a listener are asked for while another thread registers one. -/
theorem C85_violation_stats_and_register : ∃ s, Reach Anything s ∧ Race s (.listeners 1) :=
  race_of_run (as := [.call 0 (.getStats 1), .call 1 (.once 1), .step 1, .step 1, .ret 1]) (w := false) (w' := true) (by decide +kernel) rfl

/-- Finding against **C85**: a subscriber is destroyed (all listeners are removed) while another thread emits and holds the mutex. -/
theorem C85_violation_remove_all : ∃ s, Reach Anything s ∧ Race s (.listeners 1) ∧ Holds s 1 (.emitter 1) := by
  have hr : (run St.init [.call 0 (.removeAll 1 none 0), .call 1 (.emit 1 []), .step 1, .step 1]).map (fun s => (s.stack 0, s.stack 1, s.owner (.emitter 1))) =
      some ([[wr (.listeners 1), .user .value]], [[rd (.listeners 1), .rel (.emitter 1), .user .value]], some 1) := by decide +kernel
  obtain ⟨s, hs, he⟩ := Option.map_eq_some_iff.mp hr
  simp only [Prod.mk.injEq] at he
  exact ⟨s, Reach.of_run .init hs, ⟨0, 1, by omega, _, _, _, _, _, _, he.1, he.2.1, rfl⟩, he.2.2⟩

/-- Finding against **C85**: the list of service statistics is changed under two different mutexes: a service and the statistics of another one are attached. -/
theorem C85_violation_two_mutexes : ∃ s, Reach Anything s ∧ Race s (.serviceStats 1) :=
  race_of_run (as := [.call 0 (.attachService 1), .step 0, .step 0, .call 1 (.attachServiceStats 1), .step 1]) (w := true) (w' := true) (by decide +kernel) rfl

/-- Finding against **C85**: two threads detach and attach publications; detaching takes no lock. -/
theorem C85_violation_detach_publication : ∃ s, Reach Anything s ∧ Race s (.publications 1) :=
  race_of_run (as := [.call 0 (.detachPublication 1), .call 1 (.attachPublication 1), .step 1]) (w := true) (w' := true) (by decide +kernel) rfl

/-- Finding against **C85**: the container is started while another thread registers a listener that it attaches. -/
theorem C85_violation_start_container : ∃ s, Reach Anything s ∧ Race s (.subscriptions 1) :=
  race_of_run (as := [.call 0 (.startStop 1), .step 0, .step 0, .step 0, .call 1 (.on 2 (some 1)), .step 1, .step 1, .step 1]) (w := false) (w' := true)
    (by decide +kernel) rfl

/-- Finding against **C85**: the bound of a queue is changed while another thread pushes. -/
theorem C85_violation_set_bound : ∃ s, Reach Anything s ∧ Race s (.bound 1) :=
  race_of_run (as := [.call 0 (.qSetBound 1), .call 1 (.qTryPush 1 1), .step 1]) (w := true) (w' := false) (by decide +kernel) rfl

/-- Finding against **C85**: a queue is moved from while another thread pops. -/
theorem C85_violation_move : ∃ s, Reach Anything s ∧ Race s (.items 1) :=
  race_of_run (as := [.call 0 (.qMove 1), .call 1 (.qTryPop 1), .step 1]) (w := true) (w' := false) (by decide +kernel) rfl

/-- Finding against **C85**: two queues are assigned to each other by moving; each assignment locks only its target. -/
theorem C85_violation_move_assign : ∃ s, Reach Anything s ∧ Race s (.items 2) :=
  race_of_run (as := [.call 0 (.qMoveAssign 1 2), .step 0, .call 1 (.qMoveAssign 2 1), .step 1, .step 1]) (w := true) (w' := true) (by decide +kernel) rfl

/-- Finding against **C85**: a reply that arrives during the construction of a `MultiThreadCallbackHandler` looks through the requests without the lock, while the first
request is added under the lock. -/
theorem C85_violation_early_reply : ∃ s, Reach Anything s ∧ Race s (.requests 1) :=
  race_of_run (as := [.call 0 (.replyEarly 1 0 false), .call 1 (.request 1), .step 1, .ret 1]) (w := false) (w' := true) (by decide +kernel) rfl

/-- Finding against **C85**: somebody reads `totalCopyingTime` while an event arrives. -/
theorem C85_violation_copying_time : ∃ s, Reach Anything s ∧ Race s (.copyTime 1) :=
  race_of_run (as := [.call 0 (.cacheTime 1), .call 1 (.cacheEvent 1), .step 1, .ret 1, .step 1, .ret 1]) (w := false) (w' := true) (by decide +kernel) rfl

/-- Finding against **C85**: a shared environment (`ZMQEnv`) has a thread of its own, which replaces the properties when a message arrives, and no mutex: a
program with a single thread, which does nothing but read a property, races with it. -/
theorem C85_violation_shared_environment_read : ∃ s, Reach Anything s ∧ Race s (.conf 1) :=
  race_of_run (as := [.spawn 1 3, .call 0 (.zenvGet 1), .call 1 (.zenvPoll 1 true)]) (w := false) (w' := true) (by decide +kernel) rfl

/-- … and so does one that sets a property; the message it publishes may be made of properties that are being replaced. -/
theorem C85_violation_shared_environment_write : ∃ s, Reach Anything s ∧ Race s (.conf 1) :=
  race_of_run (as := [.spawn 1 3, .call 0 (.zenvSet 1), .step 0, .call 1 (.zenvPoll 1 true)]) (w := false) (w' := true) (by decide +kernel) rfl

/-- **C85**: a shared environment is free of races if its own thread applies no message (no other peer has the same key) and only one thread of the program uses it,
`t`.
Missing: see the findings. -/
theorem C85_shared_environment_partial {n t : Nat} {s : St}
    (h : Reach (fun _ u f => u ≠ t → accesses (.conf n) (code f) = []) s) : ¬ Race s (.conf n) := by
  have hno : ∀ u, u ≠ t → ∀ fr ∈ s.stack u, accesses (.conf n) fr = [] := by
    induction h with
    | init => simp [St.init]
    | @step s s' a _ hp hs ih =>
      intro u hu fr' hfr
      obtain ⟨h1, h2⟩ := step_frames hs (.conf n)
      by_cases hut : u = a.thread
      · subst hut
        rcases h2 fr' hfr with ⟨t', f, rfl, rfl⟩ | h0 | ⟨fr, hm, hsub, _⟩
        · exact hp t' f rfl hu
        · exact h0
        · have := ih _ hu fr hm
          rw [List.eq_nil_iff_forall_not_mem] at this ⊢
          exact fun w hw => this w (hsub w hw)
      · rw [h1 u hut] at hfr
        exact ih u hu fr' hfr
  rintro ⟨u, v, huv, w, r, st, w', r', st', e, e', _⟩
  have hx : ∀ u w r st, s.stack u = (.acc (.conf n) w :: r) :: st → u = t := by
    intro u w r st e
    by_contra hu
    have := hno u hu _ (by rw [e]; exact List.mem_cons_self ..)
    simp [accesses] at this
  exact huv ((hx u w r st e).trans (hx v w' r' st' e').symm)

/-! ### concrete programs -/

/-- A program in which only thread 0 uses a shared environment, and the polling thread has got a message that it does not apply. -/
theorem C85_example_shared_environment : ∃ s, Reach (fun _ u f => u ≠ 0 → accesses (.conf 1) (code f) = []) s ∧
    nextAccess s 0 = some (.conf 1, false) ∧ s.stack 1 = [[], body 1 1] := by
  have hr : (run St.init [.spawn 1 1, .call 1 (.zenvPoll 1 false), .call 0 (.zenvSet 1), .step 0]).map (fun s => (nextAccess s 0, s.stack 1)) =
      some (some (.conf 1, false), [[], body 1 1]) := by decide +kernel
  obtain ⟨s, hs, he⟩ := Option.map_eq_some_iff.mp hr
  simp only [Prod.mk.injEq] at he
  refine ⟨s, ?_, he.1, he.2⟩
  have r1 : (step St.init (.spawn 1 1)).isSome = true := by decide +kernel
  obtain ⟨s1, e1⟩ := Option.isSome_iff_exists.mp r1
  simp only [run, e1] at hs
  split at hs
  · cases hs
  rename_i s2 e2
  split at hs
  · cases hs
  rename_i s3 e3
  split at hs
  · cases hs
  rename_i s4 e4
  cases hs
  refine .step _ (.step _ (.step _ (.step _ .init ?_ e1) ?_ e2) ?_ e3) ?_ e4
  · intro t f h; cases h
  · intro t f h; cases h; exact fun _ => rfl
  · intro t f h; cases h; exact fun hh => absurd rfl hh
  · intro t f h; cases h


/-- Does the program take care of `x`, as far as the threads below `n` are concerned? -/
def okCareful (x : Var) (n : Nat) (s : St) : Act → Bool
  | .call t f => (List.range n).all fun u => u == t || (s.stack u).all fun fr =>
      (unguarded x (code f)).all (fun w => (accesses x fr).all fun w' => !(w || w')) && (accesses x (code f)).all (fun w => (unguarded x fr).all fun w' => !(w || w'))
  | _ => true

def runCareful (x : Var) (n : Nat) (s : St) : List Act → Option St
  | [] => some s
  | a :: as => if okCareful x n s a && decide (a.thread < n) then (step s a).bind fun s' => runCareful x n s' as else none

theorem Reach.of_runCareful {x : Var} {n : Nat} {s : St} : ∀ {as : List Act} {s0 : St}, Reach (Careful x) s0 → (∀ t, n ≤ t → s0.stack t = []) →
    runCareful x n s0 as = some s → Reach (Careful x) s
  | [], _, h, _, e => by cases e; exact h
  | a :: as, s0, h, hz, e => by
    simp only [runCareful] at e
    obtain ⟨hok, e⟩ := Option.ite_none_right_eq_some.mp e
    obtain ⟨s1, hs, e⟩ := Option.bind_eq_some_iff.mp e
    rw [Bool.and_eq_true, decide_eq_true_eq] at hok
    refine Reach.of_runCareful (.step a h (fun t f ha u hu fr hfr => ?_) hs) (fun t ht => ?_) e
    · subst ha
      by_cases hn : u < n
      · have h1 := hok.1
        simp only [okCareful, List.all_eq_true, List.mem_range, Bool.or_eq_true, beq_iff_eq, Bool.and_eq_true] at h1
        have h2 := (h1 u hn).resolve_left hu fr hfr
        refine ⟨fun w hw w' hw' => ?_, fun w hw w' hw' => ?_⟩
        · have := h2.1 w hw w' hw'
          simpa using this
        · have := h2.2 w hw w' hw'
          simpa using this
      · rw [hz u (by omega)] at hfr; cases hfr
    · rw [(step_frames hs x).1 t (by omega)]
      exact hz t ht

/-- **C85** in a concrete case: after a registration two threads emit at the same time, both about to look at the listeners, one under the lock, and a third is in a
listener that asks for the statistics of another emitter. -/
theorem C85_example : ∃ s, Reach (Careful (.listeners 1)) s ∧ nextAccess s 0 = some (.listeners 1, false) ∧ nextAccess s 1 = some (.listeners 1, false) ∧
    Holds s 1 (.emitter 1) ∧ (s.stack 2).length = 2 := by
  have hr : (runCareful (.listeners 1) 3 St.init [.call 2 (.on 1 none), .step 2, .step 2, .ret 2, .step 2, .step 2, .step 2,
      .call 2 (.emit 1 [false]), .step 2, .step 2, .step 2, .step 2, .call 2 (.getStats 5), .call 0 (.emit 1 [false]), .call 1 (.emit 1 []), .step 1, .step 1]).map
      (fun s => (nextAccess s 0, nextAccess s 1, s.owner (.emitter 1), (s.stack 2).length)) = some (some (.listeners 1, false), some (.listeners 1, false), some 1, 2) := by
    decide +kernel
  obtain ⟨s, hs, he⟩ := Option.map_eq_some_iff.mp hr
  simp only [Prod.mk.injEq] at he
  exact ⟨s, Reach.of_runCareful .init (fun _ _ => rfl) hs, he.1, he.2.1, he.2.2.1, he.2.2.2⟩

theorem Reach.of_runWhere {p : Fn → Bool} {s : St} : ∀ {as : List Act} {s0 : St}, Reach (fun _ _ f => p f = true) s0 →
    as.all (fun a => match a with | .call _ f => p f | _ => true) = true → run s0 as = some s → Reach (fun _ _ f => p f = true) s
  | [], _, h, _, e => by cases e; exact h
  | a :: as, s0, h, ha, e => by
    simp only [List.all_cons, Bool.and_eq_true] at ha
    simp only [run] at e
    split at e
    · cases e
    · rename_i s1 hs
      exact Reach.of_runWhere (.step a h (fun t f e' => by subst e'; exact ha.1) hs) ha.2 e

/-- **C85** in a concrete case: one thread is about to set a property, under the lock; two others wait to read and to set one. -/
theorem C85_example_environment : ∃ s, Reach Anything s ∧ nextAccess s 0 = some (.props 1, true) ∧ Blocked s 1 (.env 1) ∧ Blocked s 2 (.env 1) := by
  have hr : (run St.init [.call 0 (.envSet 1), .step 0, .call 1 (.envGet 1), .call 2 (.envSet 1)]).map (fun s => (nextAccess s 0, s.stack 1, s.stack 2, s.owner (.env 1))) =
      some (some (.props 1, true), [code (.envGet 1)], [code (.envSet 1)], some 0) := by decide +kernel
  obtain ⟨s, hs, he⟩ := Option.map_eq_some_iff.mp hr
  simp only [Prod.mk.injEq] at he
  obtain ⟨h0, h1, h2, h3⟩ := he
  exact ⟨s, Reach.of_run .init hs, h0, ⟨_, _, h1, by rw [h3]; simp⟩, ⟨_, _, h2, by rw [h3]; simp⟩⟩

set_option synthInstance.maxSize 4000 in
/-- **C85** in a concrete case: a thread pops after a wait, a second is about to push, a third to exchange the queue with another. -/
theorem C85_example_queue : ∃ s, Reach (fun _ _ f => f ≠ .qMove 1 ∧ ∀ a, f ≠ .qMoveAssign a 1) s ∧ nextAccess s 0 = some (.items 1, false) ∧ Blocked s 1 (.queue 1) ∧
    Blocked s 2 (.queue 1) ∧ Holds s 2 (.queue 3) := by
  let p : Fn → Bool := fun f => match f with | .qMove _ => false | .qMoveAssign _ _ => false | _ => true
  have ha : ([.call 0 (.qPop 1 1), .step 0, .step 0, .step 0, .step 0, .step 0, .call 1 (.qPush 1 0), .call 2 (.qSwap 3 1), .step 2] : List Act).all
      (fun a => match a with | .call _ f => p f | _ => true) = true := by decide +kernel
  have hr : (run St.init [.call 0 (.qPop 1 1), .step 0, .step 0, .step 0, .step 0, .step 0, .call 1 (.qPush 1 0), .call 2 (.qSwap 3 1), .step 2]).map
      (fun s => (nextAccess s 0, s.stack 1, s.stack 2, s.owner (.queue 1), s.owner (.queue 3))) =
      some (some (.items 1, false), [code (.qPush 1 0)], [[.acq (.queue 1), wr (.items 3), wr (.items 1), .rel (.queue 1), .rel (.queue 3)]], some 0, some 2) := by
    decide +kernel
  obtain ⟨s, hs, he⟩ := Option.map_eq_some_iff.mp hr
  simp only [Prod.mk.injEq] at he
  obtain ⟨h0, h1, h2, h3, h4⟩ := he
  refine ⟨s, (Reach.of_runWhere .init ha hs).mono fun _ _ f hf => ⟨?_, ?_⟩, h0, ⟨_, _, h1, by rw [h3]; simp⟩, ⟨_, _, h2, by rw [h3]; simp⟩, h4⟩
  · rintro rfl; cases hf
  · rintro a rfl; cases hf

end Verif.Locks
