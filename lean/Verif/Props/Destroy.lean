import Verif.Model.Destroy

/-!
C65: destroying middleware objects.  "Safe": no thread and no destructor uses a destroyed part, and the process is not terminated.
-/

namespace Verif.Destroy
open Verif

/-- No execution of the destructor `prog`, started while the threads `live` run and the threads `js` are joinable, goes wrong. -/
def Safe (c : Cls) (prog : List DAct) (live js : List Thr) : Prop :=
  ∀ s, Reach c (.start prog live js) s → s.bad = false ∧ s.term = false

/-- Static check of a destructor: nothing is destroyed that a thread not yet joined uses; threads are joined before their objects are destroyed. -/
def check (uses : Thr → List Mem) : List Thr → List Mem → List DAct → Bool
  | _, _, [] => true
  | js, fr, .clear _ :: p => check uses js fr p
  | js, fr, .join t :: p => check uses (js.filter (· ≠ t)) fr p
  | js, fr, .thread t :: p => decide (t ∉ js) && check uses js fr p
  | js, fr, .free m :: p => js.all (fun t => decide (m ∉ uses t)) && check uses js (m :: fr) p
  | js, fr, .use m :: p => decide (m ∉ fr) && check uses js fr p

/-- Every thread is told before it is waited for. -/
def wellTold (c : Cls) : List Thr → List DAct → Bool
  | _, [] => true
  | told, .clear t :: p => wellTold c (t :: told) p
  | told, .join t :: p => (decide (t ∈ told) || c.once t) && wellTold c told p
  | told, _ :: p => wellTold c told p

structure Inv (c : Cls) (s : St) : Prop where
  chk : check c.uses s.joinable s.freed s.rest = true
  live : ∀ t ∈ s.live, t ∈ s.joinable
  use : ∀ t ∈ s.joinable, ∀ m ∈ c.uses t, m ∉ s.freed
  bad : s.bad = false
  term : s.term = false

theorem Inv.step {c : Cls} {s s' : St} {a : Act} (hi : Inv c s) (hs : Destroy.step c s a = some s') : Inv c s' := by
  cases a with
  | dtor =>
    simp only [Destroy.step] at hs
    rw [if_neg (by rw [hi.term]; simp)] at hs
    have hc := hi.chk
    split at hs
    · cases hs
    · next h => cases hs; rw [h] at hc; exact { hi with chk := hc }
    · next t p h =>
      rw [h] at hc
      split at hs
      · split at hs
        · cases hs
        · next hl =>
          cases hs
          exact { hi with
            chk := hc
            live := fun u hu => List.mem_filter.mpr ⟨hi.live u hu, by simp; rintro rfl; exact hl hu⟩
            use := fun u hu => hi.use u (List.mem_filter.mp hu).1 }
      · next hj =>
        cases hs
        have : s.joinable.filter (· ≠ t) = s.joinable := List.filter_eq_self.mpr (fun u hu => by simp; rintro rfl; exact hj hu)
        simp only [check, this] at hc
        exact { hi with chk := hc }
    · next t p h =>
      rw [h] at hc
      simp only [check, Bool.and_eq_true, decide_eq_true_eq] at hc
      rw [if_neg hc.1] at hs
      cases hs
      exact { hi with chk := hc.2 }
    · next m p h =>
      rw [h] at hc
      simp only [check, Bool.and_eq_true, List.all_eq_true, decide_eq_true_eq] at hc
      cases hs
      exact { hi with
        chk := hc.2
        use := fun t ht k hk hm => by
          rcases List.mem_cons.mp hm with rfl | hm
          · exact hc.1 t ht hk
          · exact hi.use t ht k hk hm }
    · next m p h =>
      rw [h] at hc
      simp only [check, Bool.and_eq_true, decide_eq_true_eq] at hc
      cases hs
      exact { hi with chk := hc.2, bad := by show (s.bad || _) = false; rw [hi.bad]; simp [hc.1] }
  | tuse t m =>
    simp only [Destroy.step] at hs
    split at hs
    · next h =>
      cases hs
      exact { hi with bad := by show (s.bad || _) = false; rw [hi.bad]; simp [hi.use t (hi.live t h.2.1) m h.2.2] }
    · cases hs
  | tend t =>
    simp only [Destroy.step] at hs
    split at hs
    · cases hs
      exact { hi with live := fun u hu => hi.live u (List.mem_filter.mp hu).1 }
    · cases hs

/-- The static check is enough, for every class, whatever the threads do. -/
theorem C65_check_sound {c : Cls} {prog : List DAct} {live js : List Thr} (hl : ∀ t ∈ live, t ∈ js) (h : check c.uses js [] prog = true) :
    Safe c prog live js := by
  intro s hr
  have hi : Inv c s := by
    induction hr with
    | refl => exact ⟨h, hl, by simp [St.start], rfl, rfl⟩
    | step a _ hs ih => exact ih.step hs
  exact ⟨hi.bad, hi.term⟩

theorem Reach.head {c : Cls} {s s' s'' : St} (a : Act) (hs : Destroy.step c s a = some s') (h : Reach c s' s'') : Reach c s s'' := by
  induction h with
  | refl => exact .step a .refl hs
  | step b _ hb ih => exact .step b ih hb

theorem step_dtor {c : Cls} {s : St} (ht : s.term = false) : step c s .dtor = match s.rest with
    | [] => none
    | .clear t :: p => some { s with rest := p, told := t :: s.told }
    | .join t :: p =>
      if t ∈ s.joinable then
        if t ∈ s.live then none else some { s with rest := p, joinable := s.joinable.filter (· ≠ t) }
      else some { s with rest := p }
    | .thread t :: p => if t ∈ s.joinable then some { s with term := true } else some { s with rest := p }
    | .free m :: p => some { s with rest := p, freed := m :: s.freed }
    | .use m :: p => some { s with rest := p, bad := s.bad || decide (m ∈ s.freed) } := by
  simp only [step]; rw [if_neg (by rw [ht]; simp)]
  rcases s.rest with _ | ⟨a, p⟩
  · rfl
  · cases a <;> rfl

/-- The static check is necessary, for every class: if it fails, the threads, running when the destructor starts, can make it go wrong. -/
theorem C65_check_complete {c : Cls} {prog : List DAct} {js : List Thr} (hw : wellTold c [] prog = true) (h : check c.uses js [] prog = false) :
    ¬ Safe c prog js js := by
  have key : ∀ (prog : List DAct) (s : St), s.rest = prog → s.term = false → s.live = s.joinable → wellTold c s.told prog = true →
      check c.uses s.joinable s.freed prog = false → ∃ s', Reach c s s' ∧ (s'.bad = true ∨ s'.term = true) := by
    intro prog
    induction prog with
    | nil => intro s _ _ _ _ hc; simp [check] at hc
    | cons a p ih =>
      intro s hr ht hl hw hc
      cases a with
      | clear t =>
        obtain ⟨s', h1, h2⟩ := ih { s with rest := p, told := t :: s.told } rfl ht hl hw hc
        exact ⟨s', h1.head .dtor (by rw [step_dtor ht, hr]), h2⟩
      | join t =>
        simp only [wellTold, Bool.and_eq_true, Bool.or_eq_true, decide_eq_true_eq] at hw
        by_cases hj : t ∈ s.joinable
        · have hlv : t ∈ s.live := hl ▸ hj
          obtain ⟨s', h1, h2⟩ := ih { s with rest := p, live := s.live.filter (· ≠ t), joinable := s.joinable.filter (· ≠ t) } rfl ht
            (by show s.live.filter _ = s.joinable.filter _; rw [hl]) hw.2 hc
          refine ⟨s', ?_, h2⟩
          refine Reach.head (s' := { s with live := s.live.filter (· ≠ t) }) (.tend t) ?_ (h1.head .dtor ?_)
          · simp only [step]; rw [if_pos ⟨ht, hlv, hw.1⟩]
          · rw [step_dtor (s := { s with live := s.live.filter (· ≠ t) }) ht]
            simp only [hr]
            rw [if_pos hj, if_neg (by simp)]
        · have : s.joinable.filter (· ≠ t) = s.joinable := List.filter_eq_self.mpr (fun u hu => by simp; rintro rfl; exact hj hu)
          simp only [check, this] at hc
          obtain ⟨s', h1, h2⟩ := ih { s with rest := p } rfl ht hl hw.2 hc
          exact ⟨s', h1.head .dtor (by rw [step_dtor ht, hr]; simp [hj]), h2⟩
      | thread t =>
        by_cases hj : t ∈ s.joinable
        · exact ⟨_, .step .dtor .refl (s' := { s with term := true }) (by rw [step_dtor ht, hr]; simp [hj]), .inr rfl⟩
        · simp only [check, hj, not_false_eq_true, decide_true, Bool.true_and] at hc
          obtain ⟨s', h1, h2⟩ := ih { s with rest := p } rfl ht hl hw hc
          exact ⟨s', h1.head .dtor (by rw [step_dtor ht, hr]; simp [hj]), h2⟩
      | free m =>
        by_cases hu : s.joinable.all (fun t => decide (m ∉ c.uses t)) = true
        · simp only [check, hu, Bool.true_and] at hc
          obtain ⟨s', h1, h2⟩ := ih { s with rest := p, freed := m :: s.freed } rfl ht hl hw hc
          exact ⟨s', h1.head .dtor (by rw [step_dtor ht, hr]), h2⟩
        · have hu : ∃ t ∈ s.joinable, m ∈ c.uses t := by simpa using hu
          obtain ⟨t, hj, hm⟩ := hu
          refine ⟨{ s with rest := p, freed := m :: s.freed, bad := true }, ?_, .inl rfl⟩
          refine Reach.head (s' := { s with rest := p, freed := m :: s.freed }) .dtor (by rw [step_dtor ht, hr]) ?_
          refine .step (.tuse t m) .refl ?_
          simp only [step]
          rw [if_pos ⟨ht, hl ▸ hj, hm⟩]
          simp
      | use m =>
        by_cases hm : m ∈ s.freed
        · exact ⟨_, .step .dtor .refl (s' := { s with rest := p, bad := true }) (by rw [step_dtor ht, hr]; simp [hm]), .inl rfl⟩
        · simp only [check, hm, not_false_eq_true, decide_true, Bool.true_and] at hc
          obtain ⟨s', h1, h2⟩ := ih { s with rest := p } rfl ht hl hw hc
          exact ⟨s', h1.head .dtor (by rw [step_dtor ht, hr]; simp [hm]), h2⟩
  intro hs
  obtain ⟨s', h1, h2⟩ := key prog (.start prog js js) rfl rfl rfl hw h
  have := hs s' h1
  rcases h2 with h2 | h2
  · rw [this.1] at h2; cases h2
  · rw [this.2] at h2; cases h2

/-- A destructor that destroys the `std::thread` object of a joinable thread it does not join never completes: the process is terminated,
also if the thread itself has ended long ago. -/
theorem C65_unjoined_never_completes {c : Cls} {prog : List DAct} {live js : List Thr} {t : Thr} (hj : t ∈ js) (hp : .thread t ∈ prog)
    (hn : .join t ∉ prog) : ∀ s, Reach c (.start prog live js) s → s.rest ≠ [] := by
  intro s hr
  have : t ∈ s.joinable ∧ .thread t ∈ s.rest ∧ .join t ∉ s.rest := by
    induction hr with
    | refl => exact ⟨hj, hp, hn⟩
    | step a _ hs ih =>
      obtain ⟨h1, h2, h3⟩ := ih
      cases a with
      | dtor =>
        simp only [step] at hs
        split at hs
        · cases hs
        · split at hs
          · cases hs
          · next h => cases hs; rw [h] at h2 h3; simp at h2 h3; exact ⟨h1, h2, h3⟩
          · next u p h =>
            rw [h] at h2 h3; simp at h2 h3
            split at hs
            · split at hs
              · cases hs
              · cases hs; exact ⟨List.mem_filter.mpr ⟨h1, by simp; exact h3.1⟩, h2, h3.2⟩
            · cases hs; exact ⟨h1, h2, h3.2⟩
          · next u p h =>
            split at hs
            · cases hs; exact ⟨h1, h2, h3⟩
            · next hu =>
              cases hs
              rw [h] at h2 h3; simp at h2 h3
              refine ⟨h1, ?_, h3⟩
              rcases h2 with rfl | h2
              · exact absurd h1 hu
              · exact h2
          · next h => cases hs; rw [h] at h2 h3; simp at h2 h3; exact ⟨h1, h2, h3⟩
          · next h => cases hs; rw [h] at h2 h3; simp at h2 h3; exact ⟨h1, h2, h3⟩
      | tuse u m =>
        simp only [step] at hs
        split at hs
        · cases hs; exact ⟨h1, h2, h3⟩
        · cases hs
      | tend u =>
        simp only [step] at hs
        split at hs
        · cases hs; exact ⟨h1, h2, h3⟩
        · cases hs
  intro h
  rw [h] at this
  exact absurd this.2.1 (by simp)

/-! ### Composition of destructors -/

def afterJs : List Thr → List DAct → List Thr
  | js, [] => js
  | js, .join t :: p => afterJs (js.filter (· ≠ t)) p
  | js, _ :: p => afterJs js p

def afterFr : List Mem → List DAct → List Mem
  | fr, [] => fr
  | fr, .free m :: p => afterFr (m :: fr) p
  | fr, _ :: p => afterFr fr p

theorem check_append (uses : Thr → List Mem) (js : List Thr) (fr : List Mem) (p q : List DAct) :
    check uses js fr (p ++ q) = (check uses js fr p && check uses (afterJs js p) (afterFr fr p) q) := by
  induction p generalizing js fr with
  | nil => simp [check, afterJs, afterFr]
  | cons a p ih => cases a <;> simp [check, afterJs, afterFr, ih, Bool.and_assoc]

theorem mem_afterFr {fr : List Mem} {p : List DAct} {m : Mem} : m ∈ afterFr fr p ↔ m ∈ fr ∨ .free m ∈ p := by
  induction p generalizing fr with
  | nil => simp [afterFr]
  | cons a p ih =>
    cases a <;> simp [afterFr, ih]
    next k => constructor
              · rintro ((h | h) | h)
                · exact .inr (.inl h)
                · exact .inl h
                · exact .inr (.inr h)
              · rintro (h | h | h)
                · exact .inl (.inr h)
                · exact .inl (.inl h)
                · exact .inr h

theorem afterJs_nil (p : List DAct) : afterJs [] p = [] := by
  induction p with
  | nil => rfl
  | cons a p ih => cases a <;> simp [afterJs, ih]

/-- With no threads left, a destructor is safe if it uses nothing after destroying it. -/
theorem check_nil (uses : Thr → List Mem) {fr : List Mem} {p : List DAct} (h : ∀ m, .use m ∈ p → m ∉ fr ∧ .free m ∉ p) : check uses [] fr p = true := by
  induction p generalizing fr with
  | nil => rfl
  | cons a p ih =>
    cases a with
    | clear t => exact ih (fun m hm => by have := h m (List.mem_cons_of_mem _ hm); simp at this; exact this)
    | join t => exact ih (fun m hm => by have := h m (List.mem_cons_of_mem _ hm); simp at this; exact this)
    | thread t => simp [check]; exact ih (fun m hm => by have := h m (List.mem_cons_of_mem _ hm); simp at this; exact this)
    | free k => simp [check]; exact ih (fun m hm => by have := h m (List.mem_cons_of_mem _ hm); simp at this; simp; exact ⟨⟨this.2.1, this.1⟩, this.2.2⟩)
    | use k =>
      simp [check]
      exact ⟨(h k List.mem_cons_self).1, ih (fun m hm => by have := h m (List.mem_cons_of_mem _ hm); simp at this; exact this)⟩

/-! ### The classes -/

/-- A stopped in-memory provider is destroyed safely.
Missing: running providers (C65_violation_in_memory_running). -/
theorem C65_in_memory_stopped_partial : Safe inMemCls basicProvider [] [] ∧ Safe inMemCls concurrentProvider [] [] :=
  ⟨C65_check_sound (by simp) (by decide), C65_check_sound (by simp) (by decide)⟩

/-- Violation: a running in-memory provider is not: the poller may use the destroyed queue. -/
theorem C65_violation_in_memory_running : ¬ Safe inMemCls basicProvider [.poller] [.poller] ∧ ¬ Safe inMemCls concurrentProvider [.poller] [.poller] :=
  ⟨C65_check_complete (by decide) (by decide), C65_check_complete (by decide) (by decide)⟩

/-- An execution that shows it: the queue is destroyed, the poller pops from it. -/
theorem C65_example_queue_used_after_destruction :
    (run inMemCls (.start basicProvider [.poller] [.poller]) [.tuse .poller .queue, .dtor, .tuse .poller .queue]).map (fun s => (s.bad, s.freed)) =
    some (true, [.queue]) := by decide

/-- The same for the concurrent provider: token and queue go first, the poller dequeues with them. -/
theorem C65_example_token_used_after_destruction :
    (run inMemCls (.start concurrentProvider [.poller] [.poller]) [.tuse .poller .token, .dtor, .tuse .poller .token]).map (fun s => (s.bad, s.freed)) =
      some (true, [.token]) ∧
    (run inMemCls (.start concurrentProvider [.poller] [.poller]) [.dtor, .dtor, .tuse .poller .queue]).map (fun s => (s.bad, s.freed)) =
      some (true, [.queue, .token]) := by decide

/-- Moving the queue to the base class (declared first, destroyed last) would make it safe, were it not for the part of the derived poller. -/
theorem C65_example_order_matters : check inMemCls.uses [.poller] [] (inMemBase.filter (· ≠ .free .pollerDerived) ++ [.free .pollerDerived, .free .queue]) = true := by
  decide

/-- A stopped event loop provider without scheduled tasks is destroyed safely, whatever publishers and subscribers it has.
Missing: started loops and tasks not stopped (C65_violation_event_loop_running, C65_violation_scheduled_task). -/
theorem C65_event_loop_stopped_partial (once : String → Bool) (tasks subs pubs : List String) :
    Safe (eventLoopCls once subs pubs) (eventLoopProvider tasks subs pubs) [] [] := by
  refine C65_check_sound (by simp) ?_
  have hsplit : eventLoopProvider tasks subs pubs = (scheduler tasks ++ (subs.flatMap fun k => [.use .emitter, .free (.subOf k)]) ++
      (pubs.map fun k => .free (.pubOf k))) ++ [.thread .loop, .free .processor, .free .handler, .free .emitter, .free .ring] := rfl
  rw [hsplit, check_append, afterJs_nil]
  rw [Bool.and_eq_true]
  refine ⟨check_nil _ ?_, by simp [check]⟩
  intro m hm
  refine ⟨by simp, ?_⟩
  have hm : m = .emitter := by simp [scheduler] at hm; exact hm.2
  subst hm
  simp [scheduler]

/-- Violation: the destructor of a started event loop provider never completes: the process is terminated. -/
theorem C65_violation_event_loop_running (once : String → Bool) (tasks subs pubs : List String) {live js : List Thr} (h : .loop ∈ js) :
    ∀ s, Reach (eventLoopCls once subs pubs) (.start (eventLoopProvider tasks subs pubs) live js) s → s.rest ≠ [] := by
  refine C65_unjoined_never_completes h (by simp [eventLoopProvider]) ?_
  simp [eventLoopProvider, scheduler]

/-- Violation: a scheduled task that was started and not stopped terminates the process when the scheduler is destroyed, be it repeated or not,
be it finished or not. -/
theorem C65_violation_scheduled_task (c : Cls) (tasks : List String) {k : String} {live js : List Thr} (hk : k ∈ tasks) (h : .task k ∈ js) :
    ∀ s, Reach c (.start (scheduler tasks) live js) s → s.rest ≠ [] := by
  refine C65_unjoined_never_completes h ?_ ?_
  · simp [scheduler]; exact hk
  · simp [scheduler]

/-- Before the process is terminated, the loop may call a subscriber that is destroyed. -/
theorem C65_violation_event_loop_subscriber : ¬ Safe (eventLoopCls (fun _ => false) ["a"] []) (eventLoopProvider [] ["a"] []) [.loop] [.loop] ∧
    (run (eventLoopCls (fun _ => false) ["a"] []) (.start (eventLoopProvider [] ["a"] []) [.loop] [.loop])
      [.dtor, .dtor, .tuse .loop (.subOf "a")]).map (·.bad) = some true :=
  ⟨C65_check_complete (by decide) (by decide), by decide⟩

theorem dataMux_check (subs : List String) (hd : subs.Nodup) (fr : List Mem) (hfr : ∀ k ∈ subs, .emitterOf k ∉ fr) :
    check dataMuxCls.uses (subs.map .sub) fr
      ((subs.flatMap fun k => [.clear (.sub k), .join (.sub k), .thread (.sub k), .free (.handlerOf k), .free (.processorOf k), .use (.emitterOf k), .free (.emitterOf k)]) ++
      [.free .publisher, .free .ring, .free .model]) = true := by
  induction subs generalizing fr with
  | nil => simp [check]
  | cons k subs ih =>
    rw [List.nodup_cons] at hd
    have hf : (List.map Thr.sub (k :: subs)).filter (· ≠ .sub k) = subs.map .sub := by
      rw [List.map_cons, List.filter_cons]
      simp
      intro j hj e; subst e; exact hd.1 hj
    have hne : ∀ j ∈ subs, k ≠ j := fun j hj e => hd.1 (e ▸ hj)
    have hall : ∀ m, m = .handlerOf k ∨ m = .processorOf k ∨ m = .emitterOf k → (subs.map Thr.sub).all (fun t => decide (m ∉ dataMuxCls.uses t)) = true := by
      intro m hm
      rw [List.all_eq_true]
      intro t ht
      obtain ⟨j, hj, rfl⟩ := List.mem_map.mp ht
      have := hne j hj
      rcases hm with rfl | rfl | rfl <;> simp [dataMuxCls, this]
    simp only [List.flatMap_cons, List.cons_append, List.nil_append, check, hf, hall _ (.inl rfl), hall _ (.inr (.inl rfl)), hall _ (.inr (.inr rfl)), Bool.true_and]
    have h1 : Thr.sub k ∉ subs.map Thr.sub := by simp; exact hd.1
    have h2 : Mem.emitterOf k ∉ Mem.processorOf k :: Mem.handlerOf k :: fr := by simp; exact hfr k List.mem_cons_self
    rw [decide_eq_true h1, decide_eq_true h2]
    simp only [Bool.true_and]
    refine ih hd.2 _ (fun j hj => ?_)
    have := hne j hj
    simp [Ne.symm this]
    exact hfr j (List.mem_cons_of_mem _ hj)

/-- The data multiplexer provider is destroyed safely while all its subscribers run, for any number of subscribers (their names differ, being keys of
a map). -/
theorem C65_data_multiplexer_running (subs : List String) (hd : subs.Nodup) {live : List Thr} (hl : ∀ t ∈ live, t ∈ subs.map .sub) :
    Safe dataMuxCls (dataMuxProvider subs) live (subs.map .sub) :=
  C65_check_sound hl (dataMux_check subs hd [] (by simp))

/-- **C65**, finding: a data multiplexer subscriber that is slow to start is not reported by an exception: the constructor throws after the
thread was started, the members are destroyed without the destructor, and the process is terminated whether or not the thread gets to run
in the meantime. -/
theorem C65_violation_slow_start (c : Cls) (k : String) (live : List Thr) {js : List Thr} (h : .sub k ∈ js) :
    ∀ s, Reach c (.start (dataMuxSubFailed k) live js) s → s.rest ≠ [] :=
  C65_unjoined_never_completes h (by simp [dataMuxSubFailed]) (by simp [dataMuxSubFailed])

/-- A stopped ZMQ channel is destroyed safely.
Missing: running channels (C65_violation_from_zmq_running). -/
theorem C65_from_zmq_stopped_partial (topics : List String) : Safe (fromZmqCls topics) (fromZmqChannel topics) [] [] := by
  refine C65_check_sound (by simp) (check_nil _ ?_)
  simp [fromZmqChannel]

/-- Violation: a running ZMQ channel with a registered topic is not: its converters are destroyed before the thread that calls them is stopped. -/
theorem C65_violation_from_zmq_running (k : String) (topics : List String) : ¬ Safe (fromZmqCls (k :: topics)) (fromZmqChannel (k :: topics)) [.poller] [.poller] := by
  refine C65_check_complete ?_ ?_
  · have : ∀ (l : List String) (q : List DAct), wellTold (fromZmqCls (k :: topics)) [] ((l.map fun k => .free (.subOf k)) ++ q) = wellTold (fromZmqCls (k :: topics)) [] q := by
      intro l q
      induction l with
      | nil => rfl
      | cons a l ih => simpa [wellTold] using ih
    rw [fromZmqChannel, this]; simp [wellTold]
  · simp [fromZmqChannel, check, fromZmqCls]

/-- The ZMQ environment is destroyed safely while its poller runs. -/
theorem C65_zmq_env_running : Safe zmqEnvCls zmqEnv [.poller] [.poller] :=
  C65_check_sound (by simp) (by decide)

/-- The order matters: with the environment or the mapper gone before the poller's thread is joined it would be used afterwards. -/
theorem C65_example_zmq_env_order :
    check zmqEnvCls.uses [.poller] [] (.free .env :: zmqEnv.filter (· ≠ .free .env)) = false ∧
    check zmqEnvCls.uses [.poller] [] (.free .mapper :: zmqEnv.filter (· ≠ .free .mapper)) = false := by decide

/-- Destructors whose threads are told before they are waited for do not hang: from every state the destructor can run on to its end (or to the
termination of the process). -/
theorem C65_completes {c : Cls} {prog : List DAct} {live js : List Thr} (hw : wellTold c [] prog = true) :
    ∀ s, Reach c (.start prog live js) s → ∃ s', Reach c s s' ∧ (s'.rest = [] ∨ s'.term = true) := by
  intro s hr
  have hwt : wellTold c s.told s.rest = true := by
    induction hr with
    | refl => exact hw
    | step a _ hs ih =>
      cases a with
      | dtor =>
        simp only [step] at hs
        split at hs
        · cases hs
        · split at hs
          · cases hs
          · next h => cases hs; rw [h] at ih; exact ih
          · next h =>
            rw [h] at ih
            simp only [wellTold, Bool.and_eq_true] at ih
            split at hs
            · split at hs <;> cases hs; exact ih.2
            · cases hs; exact ih.2
          · next h =>
            split at hs
            · cases hs; exact ih
            · cases hs; rw [h] at ih; exact ih
          · next h => cases hs; rw [h] at ih; exact ih
          · next h => cases hs; rw [h] at ih; exact ih
      | tuse u m =>
        simp only [step] at hs
        split at hs <;> cases hs; exact ih
      | tend u =>
        simp only [step] at hs
        split at hs <;> cases hs; exact ih
  clear hr hw
  generalize hp : s.rest = p at hwt
  induction p generalizing s with
  | nil => exact ⟨s, .refl, .inl hp⟩
  | cons a p ih =>
    by_cases ht : s.term = true
    · exact ⟨s, .refl, .inr ht⟩
    have ht : s.term = false := by simpa using ht
    have next : ∀ s', step c s .dtor = some s' → s'.rest = p → wellTold c s'.told p = true → ∃ s', Reach c s s' ∧ (s'.rest = [] ∨ s'.term = true) := by
      intro s' h1 h2 h3
      obtain ⟨s'', h4, h5⟩ := ih s' h2 h3
      exact ⟨s'', h4.head .dtor h1, h5⟩
    cases a with
    | clear t => exact next { s with rest := p, told := t :: s.told } (by rw [step_dtor ht, hp]) rfl hwt
    | join t =>
      simp only [wellTold, Bool.and_eq_true, Bool.or_eq_true, decide_eq_true_eq] at hwt
      by_cases hj : t ∈ s.joinable
      · by_cases hl : t ∈ s.live
        · obtain ⟨s'', h4, h5⟩ := ih { s with rest := p, live := s.live.filter (· ≠ t), joinable := s.joinable.filter (· ≠ t) } rfl hwt.2
          refine ⟨s'', ?_, h5⟩
          refine Reach.head (s' := { s with live := s.live.filter (· ≠ t) }) (.tend t) ?_ (h4.head .dtor ?_)
          · simp only [step]; rw [if_pos ⟨ht, hl, hwt.1⟩]
          · rw [step_dtor (s := { s with live := s.live.filter (· ≠ t) }) ht]
            simp only [hp]
            rw [if_pos hj, if_neg (by simp)]
        · exact next { s with rest := p, joinable := s.joinable.filter (· ≠ t) } (by rw [step_dtor ht, hp]; simp [hj, hl]) rfl hwt.2
      · exact next { s with rest := p } (by rw [step_dtor ht, hp]; simp [hj]) rfl hwt.2
    | thread t =>
      by_cases hj : t ∈ s.joinable
      · exact ⟨_, .step .dtor .refl (s' := { s with term := true }) (by rw [step_dtor ht, hp]; simp [hj]), .inr rfl⟩
      · exact next { s with rest := p } (by rw [step_dtor ht, hp]; simp [hj]) rfl hwt
    | free m => exact next { s with rest := p, freed := m :: s.freed } (by rw [step_dtor ht, hp]) rfl hwt
    | use m => exact next { s with rest := p, bad := s.bad || decide (m ∈ s.freed) } (by rw [step_dtor ht, hp]) rfl hwt

/-- The destructors above, apart from the schedulers' (which never wait), tell their threads first. -/
theorem C65_all_told (subs topics : List String) : wellTold inMemCls [] basicProvider = true ∧ wellTold inMemCls [] concurrentProvider = true ∧
    wellTold dataMuxCls [] (dataMuxProvider subs) = true ∧ wellTold (fromZmqCls topics) [] (fromZmqChannel topics) = true ∧ wellTold zmqEnvCls [] zmqEnv = true := by
  refine ⟨by decide, by decide, ?_, ?_, by decide⟩
  · have : ∀ told, wellTold dataMuxCls told (dataMuxProvider subs) = true := by
      induction subs with
      | nil => intro told; simp [dataMuxProvider, wellTold]
      | cons k subs ih =>
        intro told
        have h := ih (.sub k :: told)
        simp only [dataMuxProvider, List.flatMap_cons, List.cons_append, List.nil_append, wellTold, List.mem_cons, true_or, decide_true, Bool.true_or, Bool.true_and] at h ⊢
        exact h
    exact this []
  · have : ∀ l : List String, wellTold (fromZmqCls topics) [] ((l.map fun k => .free (.subOf k)) ++ [.clear .poller, .join .poller, .thread .poller, .free .pollerBase]) = true := by
      intro l
      induction l with
      | nil => simp [wellTold]
      | cons a l ih => simpa [wellTold] using ih
    exact this topics

/-- A thread that does not end by itself runs until the destructor tells it to end; a destructor that does not tell it leaves it running throughout. -/
theorem C65_runs_until_told {c : Cls} {prog : List DAct} {live js : List Thr} {s : St} (h : Reach c (.start prog live js) s) {t : Thr} (ht : t ∈ live)
    (ho : c.once t = false) : (t ∉ s.told → t ∈ s.live) ∧ (.clear t ∉ prog → t ∉ s.told) := by
  have key : (t ∉ s.told → t ∈ s.live) ∧ (.clear t ∉ prog → t ∉ s.told ∧ .clear t ∉ s.rest) := by
    induction h with
    | refl => exact ⟨fun _ => ht, fun h => ⟨nofun, h⟩⟩
    | step a _ hs ih =>
      obtain ⟨i1, i2⟩ := ih
      cases a with
      | dtor =>
        simp only [Destroy.step] at hs
        split at hs
        · cases hs
        · (repeat' split at hs) <;> first | cases hs | skip
          all_goals first
            | (next e => exact ⟨fun hn => i1 (fun hm => hn (List.mem_cons_of_mem _ hm)), fun hp => by
                have := i2 hp
                rw [e] at this
                simp only [List.mem_cons, DAct.clear.injEq, not_or] at this ⊢
                exact ⟨⟨this.2.1, this.1⟩, this.2.2⟩⟩)
            | (next e _ _ => exact ⟨i1, fun hp => by
                have := i2 hp
                rw [e] at this
                exact ⟨this.1, fun hm => this.2 (List.mem_cons_of_mem _ hm)⟩⟩)
            | (next e _ => exact ⟨i1, fun hp => by
                have := i2 hp
                rw [e] at this
                exact ⟨this.1, fun hm => this.2 (List.mem_cons_of_mem _ hm)⟩⟩)
            | (next e => exact ⟨i1, fun hp => by
                have := i2 hp
                rw [e] at this
                exact ⟨this.1, fun hm => this.2 (List.mem_cons_of_mem _ hm)⟩⟩)
            | exact ⟨i1, i2⟩
      | tuse u m =>
        simp only [Destroy.step] at hs
        split at hs
        · cases hs; exact ⟨i1, i2⟩
        · cases hs
      | tend u =>
        simp only [Destroy.step] at hs
        split at hs
        · next hc =>
          cases hs
          refine ⟨fun hn => List.mem_filter.mpr ⟨i1 hn, ?_⟩, i2⟩
          simp only [ne_eq, decide_not, Bool.not_eq_eq_eq_not, Bool.not_true, decide_eq_false_iff_not]
          rintro rfl
          rcases hc.2.2 with h | h
          · exact hn h
          · rw [ho] at h; cases h
        · cases hs
  exact ⟨key.1, fun h => (key.2 h).1⟩

/-- So the thread of a started event loop runs during the whole destruction of its provider, and the threads of the in-memory poller, of the zmq poller and
of the subscribers of the data multiplexer run until they are told. -/
theorem C65_threads_during_destruction (once : String → Bool) (tasks subs pubs topics : List String) (js : List Thr) (s : St) :
    (Reach (eventLoopCls once subs pubs) (.start (eventLoopProvider tasks subs pubs) [.loop] js) s → .loop ∈ s.live) ∧
    (Reach inMemCls (.start basicProvider [.poller] js) s → .poller ∉ s.told → .poller ∈ s.live) ∧
    (Reach (fromZmqCls topics) (.start (fromZmqChannel topics) [.poller] js) s → .poller ∉ s.told → .poller ∈ s.live) ∧
    (∀ k, Reach dataMuxCls (.start (dataMuxProvider subs) [.sub k] js) s → .sub k ∉ s.told → .sub k ∈ s.live) ∧
    (∀ k, Reach dataMuxCls (.start (dataMuxSubFailed k) [.sub k] js) s → .sub k ∈ s.live) := by
  refine ⟨fun h => ?_, fun h => (C65_runs_until_told h (by simp) rfl).1, fun h => (C65_runs_until_told h (by simp) rfl).1,
    fun k h => (C65_runs_until_told h (by simp) rfl).1, fun k h => ?_⟩
  · have := C65_runs_until_told h (t := .loop) (by simp) rfl
    exact this.1 (this.2 (by simp [eventLoopProvider, scheduler]))
  · have := C65_runs_until_told h (t := .sub k) (by simp) rfl
    exact this.1 (this.2 (by simp [dataMuxSubFailed]))

end Verif.Destroy
