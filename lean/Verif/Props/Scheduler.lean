import Verif.Model.Scheduler

/-! Properties of the schedulers (C46). -/

namespace Verif.Sched
open Verif

variable {κ : Type} [DecidableEq κ] {v : Bool}

/-- The task `id` is over: its thread has ended. -/
def Over (s : St κ) (id : Nat) : Prop := ∃ t, s.tasks id = some t ∧ t.pc = .done

structure Inv (s : St κ) : Prop where
  /-- task numbers are used once -/
  fresh : ∀ id, s.tasks id ≠ none → id < s.next
  /-- the map holds existing tasks -/
  map : ∀ n id, s.map n = some id → s.tasks id ≠ none
  /-- under different names different tasks -/
  inj : ∀ n m id, s.map n = some id → s.map m = some id → n = m
  /-- a task being stopped is told to end -/
  join : ∀ n id, s.ctl = .joining n id → s.map n = some id ∧ ∃ t, s.tasks id = some t ∧ t.isRunning = false

theorem Inv.init : Inv (St.init : St κ) := by
  constructor <;> simp [St.init]

theorem Inv.step {s s' : St κ} (h : Inv s) (a : Act κ) (hs : step v s a = some s') : Inv s' := by
  obtain ⟨h1, h2, h3, h4⟩ := h
  unfold Sched.step at hs
  split at hs
  · cases hs
  have upd_keep : ∀ id t (p : Pc), s.tasks id = some t →
      ∀ (s' : St κ), s'.map = s.map → s'.next = s.next → s'.ctl = s.ctl → s'.tasks = upd s.tasks id (some { t with pc := p }) → Inv s' := by
    intro id t p ht s' e1 e2 e3 e4
    constructor
    · intro i hi
      rw [e2]
      rw [e4, upd_apply] at hi
      split at hi
      · rename_i he; subst he; exact h1 i (by rw [ht]; simp)
      · exact h1 i hi
    · intro n i hi
      rw [e1] at hi
      rw [e4, upd_apply]
      split
      · simp
      · exact h2 n i hi
    · intro n m i; rw [e1]; exact h3 n m i
    · intro n i hc
      rw [e3] at hc
      obtain ⟨g1, t1, g2, g3⟩ := h4 n i hc
      refine ⟨by rw [e1]; exact g1, ?_⟩
      rw [e4, upd_apply]
      split
      · rename_i he; subst he
        rw [ht] at g2; cases g2
        exact ⟨_, rfl, g3⟩
      · exact ⟨t1, g2, g3⟩
  cases a with
  | start n r =>
    simp only at hs
    split at hs <;> try cases hs
    rename_i hc
    split at hs <;> cases hs
    · exact ⟨h1, h2, h3, h4⟩
    · rename_i hm
      have hnew : s.tasks s.next = none := by
        cases ht : s.tasks s.next with
        | none => rfl
        | some t => exact absurd (h1 s.next (by rw [ht]; simp)) (by omega)
      constructor
      · intro i hi
        simp only [upd_apply] at hi ⊢
        split at hi
        · omega
        · have := h1 i hi; omega
      · intro m i hi
        simp only [upd_apply] at hi ⊢
        split
        · simp
        · split at hi
          · cases hi; contradiction
          · exact h2 m i hi
      · intro a b i ha hb
        simp only [upd_apply] at ha hb
        split at ha <;> split at hb
        · rename_i e1 e2; rw [e1, e2]
        · cases ha; exact absurd hnew (h2 b _ hb)
        · cases hb; exact absurd hnew (h2 a _ ha)
        · exact h3 a b i ha hb
      · intro m i hi
        simp only [hc] at hi
        cases hi
  | stop n =>
    simp only at hs
    split at hs <;> try cases hs
    rename_i hc
    split at hs
    · cases hs; exact ⟨h1, h2, h3, h4⟩
    · rename_i id hm
      split at hs <;> cases hs
      rename_i t ht
      constructor
      · intro i hi
        simp only [upd_apply] at hi ⊢
        split at hi
        · rename_i he; subst he; exact h1 i (by rw [ht]; simp)
        · exact h1 i hi
      · intro m i hi
        simp only [upd_apply]
        split
        · simp
        · exact h2 m i hi
      · exact h3
      · intro m i hi
        cases hi
        exact ⟨hm, { t with isRunning := false }, by simp, rfl⟩
  | joined =>
    simp only at hs
    split at hs <;> try cases hs
    rename_i n id hc
    split at hs <;> try cases hs
    rename_i t ht
    split at hs <;> cases hs
    constructor
    · exact h1
    · intro m i hi
      simp only [upd_apply] at hi
      split at hi
      · cases hi
      · exact h2 m i hi
    · intro a b i ha hb
      simp only [upd_apply] at ha hb
      split at ha <;> split at hb <;> try (first | cases ha | cases hb)
      exact h3 a b i ha hb
    · intro m i hi; cases hi
  | test id =>
    simp only at hs
    split at hs <;> try cases hs
    rename_i t ht
    split at hs <;> cases hs
    exact upd_keep id t (if t.isRunning then .sleeping else .done) ht _ rfl rfl rfl rfl
  | wake id =>
    simp only at hs
    split at hs <;> try cases hs
    rename_i t ht
    split at hs <;> try cases hs
    split at hs <;> cases hs <;> exact upd_keep id t .inTask ht _ rfl rfl rfl rfl
  | finish id =>
    simp only at hs
    split at hs <;> try cases hs
    rename_i t ht
    split at hs <;> cases hs
    exact upd_keep id t (if t.isRepeat then .test else .done) ht _ rfl rfl rfl rfl
  | loop =>
    simp only at hs
    split at hs <;> cases hs
    exact ⟨h1, h2, h3, h4⟩
  | throws id =>
    simp only at hs
    split at hs <;> try cases hs
    split at hs <;> cases hs
    exact ⟨h1, h2, h3, h4⟩
  | stopSelf n id c =>
    simp only at hs
    split at hs <;> try cases hs
    rename_i t ht
    split at hs <;> cases hs
    rename_i hc
    simp only [Bool.and_eq_true, decide_eq_true_eq] at hc
    refine ⟨fun i hi => ?_, fun m i hi => ?_, h3, fun m i hi => ?_⟩
    · simp only [upd_apply] at hi
      split at hi
      · rename_i he; subst he; exact h1 i (by rw [ht]; simp)
      · exact h1 i hi
    · simp only [upd_apply]
      split
      · simp
      · exact h2 m i hi
    · exact absurd (hc.1.2.symm.trans hi) nofun

theorem Reach.inv {s : St κ} (h : Reach v s) : Inv s := by
  induction h with
  | init => exact Inv.init
  | step a _ hs ih => exact ih.step a hs

/-- A thread that has ended stays so, and its task is not called (published) again. -/
theorem over_step {s s' : St κ} (hi : Inv s) {id : Nat} (h : Over s id) (a : Act κ) (hs : step v s a = some s') :
    Over s' id ∧ (v = false → s.queue = [] → s'.ran id = s.ran id ∧ s'.queue = []) ∧
    s'.ran id + s'.queue.count id = s.ran id + s.queue.count id := by
  obtain ⟨t0, ht0, hp0⟩ := h
  have hlt : id < s.next := hi.fresh id (by rw [ht0]; simp)
  unfold step at hs
  split at hs
  · cases hs
  cases a with
  | start n r =>
    simp only at hs
    split at hs <;> try cases hs
    split at hs <;> cases hs
    · exact ⟨⟨t0, ht0, hp0⟩, fun _ hq => ⟨rfl, hq⟩, rfl⟩
    · exact ⟨⟨t0, by show upd _ _ _ _ = _; rw [upd_other _ _ (by omega)]; exact ht0, hp0⟩, fun _ hq => ⟨rfl, hq⟩, rfl⟩
  | stop n =>
    simp only at hs
    split at hs <;> try cases hs
    split at hs
    · cases hs; exact ⟨⟨t0, ht0, hp0⟩, fun _ hq => ⟨rfl, hq⟩, rfl⟩
    split at hs <;> cases hs
    rename_i i _ _ t ht
    refine ⟨?_, fun _ hq => ⟨rfl, hq⟩, rfl⟩
    by_cases he : i = id
    · subst he
      rw [ht] at ht0; cases ht0
      exact ⟨{ t0 with isRunning := false }, by simp, hp0⟩
    · exact ⟨t0, by show upd _ _ _ _ = _; rw [upd_other _ _ (Ne.symm he)]; exact ht0, hp0⟩
  | joined =>
    simp only at hs
    split at hs <;> try cases hs
    split at hs <;> try cases hs
    split at hs <;> cases hs
    exact ⟨⟨t0, ht0, hp0⟩, fun _ hq => ⟨rfl, hq⟩, rfl⟩
  | test i =>
    simp only at hs
    split at hs <;> try cases hs
    rename_i t ht
    split at hs <;> cases hs
    rename_i hp
    refine ⟨?_, fun _ hq => ⟨rfl, hq⟩, rfl⟩
    have hne : id ≠ i := by
      rintro rfl; rw [ht] at ht0; cases ht0; rw [hp] at hp0; cases hp0
    exact ⟨t0, by show upd _ _ _ _ = _; rw [upd_other _ _ hne]; exact ht0, hp0⟩
  | wake i =>
    simp only at hs
    split at hs <;> try cases hs
    rename_i t ht
    split at hs <;> try cases hs
    rename_i hp
    have hne : id ≠ i := by
      rintro rfl; rw [ht] at ht0; cases ht0; rw [hp] at hp0; cases hp0
    split at hs <;> cases hs
    · rename_i hv
      refine ⟨⟨t0, by show upd _ _ _ _ = _; rw [upd_other _ _ hne]; exact ht0, hp0⟩, fun hv' _ => ?_, ?_⟩
      · rw [hv'] at hv; cases hv
      · simp only [List.count_append]
        have : List.count id [i] = 0 := List.count_eq_zero.mpr (by simpa using hne)
        omega
    · refine ⟨⟨t0, by show upd _ _ _ _ = _; rw [upd_other _ _ hne]; exact ht0, hp0⟩, fun _ hq => ⟨upd_other _ _ hne, hq⟩, ?_⟩
      simp [hne]
  | finish i =>
    simp only at hs
    split at hs <;> try cases hs
    rename_i t ht
    split at hs <;> cases hs
    rename_i hp
    refine ⟨?_, fun _ hq => ⟨rfl, hq⟩, rfl⟩
    have hne : id ≠ i := by
      rintro rfl; rw [ht] at ht0; cases ht0; rw [hp] at hp0; cases hp0
    exact ⟨t0, by show upd _ _ _ _ = _; rw [upd_other _ _ hne]; exact ht0, hp0⟩
  | loop =>
    simp only at hs
    split at hs <;> cases hs
    rename_i i q hq
    refine ⟨⟨t0, ht0, hp0⟩, fun _ hq' => absurd (hq'.symm.trans hq) (by simp), ?_⟩
    simp only [hq, upd_apply, List.count_cons]
    by_cases he : id = i
    · subst he; simp; omega
    · simp [he, Ne.symm he]
  | throws i =>
    simp only at hs
    split at hs <;> try cases hs
    split at hs <;> cases hs
    exact ⟨⟨t0, ht0, hp0⟩, fun _ hq => ⟨rfl, hq⟩, rfl⟩
  | stopSelf n i c =>
    simp only at hs
    split at hs <;> try cases hs
    rename_i t ht
    split at hs <;> cases hs
    rename_i hp
    simp only [Bool.and_eq_true, decide_eq_true_eq] at hp
    refine ⟨?_, fun _ hq => ⟨rfl, hq⟩, rfl⟩
    have hne : id ≠ i := by
      rintro rfl; rw [ht] at ht0; cases ht0; rw [hp.1.1.1] at hp0; cases hp0
    exact ⟨t0, by show upd _ _ _ _ = _; rw [upd_other _ _ hne]; exact ht0, hp0⟩

theorem over_run {s s' : St κ} (hr : Reach v s) {id : Nat} (h : Over s id) (as : List (Act κ)) (hs : run v s as = some s') :
    (v = false → s.queue = [] → s'.ran id = s.ran id) ∧ s'.ran id + s'.queue.count id = s.ran id + s.queue.count id := by
  induction as generalizing s with
  | nil => cases hs; exact ⟨fun _ _ => rfl, rfl⟩
  | cons a as ih =>
    simp only [run] at hs
    split at hs
    · cases hs
    rename_i s1 hs1
    obtain ⟨h1, h2, h3⟩ := over_step hr.inv h a hs1
    obtain ⟨h4, h5⟩ := ih (hr.step a hs1) h1 hs
    exact ⟨fun hv hq => (h4 hv (h2 hv hq).2).trans (h2 hv hq).1, h5.trans h3⟩

theorem queue_empty {s : St κ} (h : Reach false s) : s.queue = [] := by
  induction h with
  | init => rfl
  | step a _ hs ih =>
    unfold step at hs
    split at hs
    · cases hs
    cases a <;> simp only at hs <;> (repeat' split at hs) <;> (try cases hs) <;> simp_all

theorem joined_over {s s1 : St κ} {n : κ} {id : Nat} (hc : s.ctl = .joining n id) (hs : step v s .joined = some s1) :
    Over s1 id ∧ s1.ran = s.ran ∧ s1.queue = s.queue := by
  unfold step at hs
  split at hs
  · cases hs
  simp only [hc] at hs
  split at hs <;> try cases hs
  rename_i t ht
  split at hs <;> cases hs
  exact ⟨⟨t, ht, by assumption⟩, rfl, rfl⟩

/-- **C46**, basic scheduler: when `stopScheduledTask` has returned, the task is never executed again, in any continuation. -/
theorem C46_scheduler_stopped {s s1 s2 : St κ} (hr : Reach false s) {n : κ} {id : Nat} (hc : s.ctl = .joining n id)
    (hs : step false s .joined = some s1) (as : List (Act κ)) (h2 : run false s1 as = some s2) : s2.ran id = s1.ran id :=
  (over_run (hr.step _ hs) (joined_over hc hs).1 as h2).1 rfl (queue_empty (hr.step _ hs))

/-- **C46**, event loop scheduler: when `stopScheduledTask` has returned, only executions that were already published to the event
loop can follow.
Missing: they do follow, `C46_violation_event_loop_scheduler`. -/
theorem C46_event_loop_scheduler_partial {s s1 s2 : St κ} (hr : Reach true s) {n : κ} {id : Nat} (hc : s.ctl = .joining n id)
    (hs : step true s .joined = some s1) (as : List (Act κ)) (h2 : run true s1 as = some s2) :
    s2.ran id ≤ s1.ran id + s1.queue.count id := by
  have := (over_run (hr.step _ hs) (joined_over hc hs).1 as h2).2
  omega

/-! ### stopScheduledTask returns -/

def Pc.rank : Pc → Nat
  | .sleeping => 3
  | .inTask => 2
  | .test => 1
  | .done => 0

/-- Steps of the thread of task `id`. -/
def Act.ofThread (id : Nat) : Act κ → Bool
  | .test i => i == id
  | .wake i => i == id
  | .finish i => i == id
  | _ => false

/-- **C46**, basic scheduler: `stopScheduledTask` returns: while it waits, every step of the thread brings it nearer to its end (the task
is executed at most once more), the thread can always make a step (if the task returns), and when it has ended `stopScheduledTask` goes on. -/
theorem C46_scheduler_stop_returns {s : St κ} (hr : Reach v s) (htm : s.terminated = false) {n : κ} {id : Nat}
    (hc : s.ctl = .joining n id) :
    ∃ t, s.tasks id = some t ∧
      (t.pc.rank = 0 → (step v s .joined).isSome = true) ∧
      (0 < t.pc.rank → ∃ a, Act.ofThread id a = true ∧ (step v s a).isSome = true) ∧
      (∀ a s', Act.ofThread id a = true → step v s a = some s' →
        ∃ t', s'.tasks id = some t' ∧ t'.pc.rank < t.pc.rank ∧ s'.ctl = .joining n id ∧ s'.terminated = false) := by
  obtain ⟨_, t, ht, hrun⟩ := hr.inv.join n id hc
  refine ⟨t, ht, ?_, ?_, ?_⟩
  · intro h0
    have : t.pc = .done := by cases hp : t.pc <;> rw [hp] at h0 <;> simp [Pc.rank] at h0 ⊢
    simp [step, htm, hc, ht, this]
  · intro h0
    cases hp : t.pc with
    | done => rw [hp] at h0; simp [Pc.rank] at h0
    | test => exact ⟨.test id, by simp [Act.ofThread], by simp [step, htm, ht, hp]⟩
    | sleeping => exact ⟨.wake id, by simp [Act.ofThread], by cases v <;> simp [step, htm, ht, hp]⟩
    | inTask => exact ⟨.finish id, by simp [Act.ofThread], by simp [step, htm, ht, hp]⟩
  · intro a s' ha hs
    cases a <;> simp [Act.ofThread] at ha <;> subst ha <;> simp only [step, htm, ht, Bool.false_eq_true, if_false] at hs
    · split at hs <;> cases hs
      rename_i hp
      refine ⟨_, upd_same .., ?_, hc, rfl⟩
      simp [hrun, hp, Pc.rank]
    · split at hs <;> try cases hs
      rename_i hp
      split at hs <;> cases hs <;> exact ⟨_, upd_same .., by simp [hp, Pc.rank], hc, rfl⟩
    · split at hs <;> cases hs
      rename_i hp
      refine ⟨_, upd_same .., ?_, hc, rfl⟩
      cases t.isRepeat <;> simp [hp, Pc.rank]

/-! ### Failures -/

/-- **C46** fails for the event loop scheduler: the task is executed after `stopScheduledTask` has returned. -/
theorem C46_violation_event_loop_scheduler :
    ((run true (St.init : St Nat) [.start 1 true, .test 0, .wake 0, .finish 0, .stop 1, .test 0, .joined]).map
      (fun s => (s.ctl, s.ran 0))) = some (.idle, 0) ∧
    ((run true (St.init : St Nat) [.start 1 true, .test 0, .wake 0, .finish 0, .stop 1, .test 0, .joined, .loop]).map
      (fun s => (s.ctl, s.ran 0))) = some (.idle, 1) := by decide +kernel

/-- **C46** fails: starting a task under a name that has not been stopped ends the program, whatever the state of the old task (even if it
was a single execution that is long over). -/
theorem C46_violation_start_twice {s s' : St κ} (hc : s.ctl = .idle) {n : κ} {id : Nat} (hm : s.map n = some id) (r : Bool)
    (hs : step v s (.start n r) = some s') : s'.terminated = true := by
  unfold step at hs
  split at hs
  · cases hs
  simp only [hc, hm, if_true] at hs
  cases hs; rfl

/-- **C46** fails for the basic scheduler: a function that throws ends the program. -/
theorem C46_violation_task_throws {s : St κ} (ht : s.terminated = false) {id : Nat} {t : Task} (h : s.tasks id = some t) (hp : t.pc = .inTask) :
    ∃ s', step false s (.throws id) = some s' ∧ s'.terminated = true := by
  simp [step, ht, h, hp]

/-- **C46** fails for the basic scheduler: a function that stops its own task ends the program, or, if it catches the exception it gets, does not take the name out of the
scheduler: the thread ends after this execution, but then another task can not be started under that name. -/
theorem C46_violation_stop_itself {s : St κ} (ht : s.terminated = false) (hc : s.ctl = .idle) {n : κ} {id : Nat} {t : Task} (hm : s.map n = some id)
    (h : s.tasks id = some t) (hp : t.pc = .inTask) :
    (∃ s', step false s (.stopSelf n id false) = some s' ∧ s'.terminated = true) ∧
    (∃ s1 s2 s3 s4, step false s (.stopSelf n id true) = some s1 ∧ s1.terminated = false ∧ step false s1 (.finish id) = some s2 ∧
      (if t.isRepeat then step false s2 (.test id) else some s2) = some s3 ∧ Over s3 id ∧ step false s3 (.start n true) = some s4 ∧ s4.terminated = true) := by
  refine ⟨by simp [step, ht, h, hp, hc, hm], ?_⟩
  cases hr : t.isRepeat <;> simp [step, ht, h, hp, hc, hm, hr, Over]

/-- … and nothing else does. -/
theorem C46_terminated_only_by {s s' : St κ} (ht : s.terminated = false) (a : Act κ) (hs : step v s a = some s') (ht' : s'.terminated = true) :
    (∃ n r id, a = .start n r ∧ s.map n = some id) ∨
    (v = false ∧ ∃ id t, s.tasks id = some t ∧ t.pc = .inTask ∧ (a = .throws id ∨ ∃ n, a = .stopSelf n id false ∧ s.map n = some id)) := by
  unfold step at hs
  rw [ht] at hs
  simp only [Bool.false_eq_true, if_false] at hs
  cases a with
  | start n r =>
    simp only at hs
    split at hs <;> try cases hs
    split at hs
    · rename_i id hm; exact .inl ⟨n, r, id, rfl, hm⟩
    · cases hs; simp [ht] at ht'
  | throws id =>
    simp only at hs
    split at hs <;> try cases hs
    rename_i t htk
    split at hs <;> cases hs
    rename_i hc
    simp only [Bool.and_eq_true, decide_eq_true_eq, Bool.not_eq_true'] at hc
    exact .inr ⟨hc.2, id, t, htk, hc.1, .inl rfl⟩
  | stopSelf n id c =>
    simp only at hs
    split at hs <;> try cases hs
    rename_i t htk
    split at hs <;> cases hs
    rename_i hc
    simp only [Bool.and_eq_true, decide_eq_true_eq, Bool.not_eq_true'] at hc
    simp only [Bool.not_eq_true'] at ht'
    subst ht'
    exact .inr ⟨hc.1.1.2, id, t, htk, hc.1.1.1, .inr ⟨n, rfl, hc.2⟩⟩
  | _ => simp only at hs <;> (repeat' split at hs) <;> (try cases hs) <;> simp_all

/-- A run with two tasks: the first is stopped while it sleeps and is executed once more before `stopScheduledTask` returns. -/
theorem C46_scheduler_example :
    ((run false (St.init : St Nat) [.start 1 true, .start 2 false, .test 0, .wake 0, .finish 0, .test 0, .test 1, .stop 1, .wake 0,
      .wake 1, .finish 0, .test 0, .joined, .finish 1, .stop 2, .joined, .start 1 false]).map
      (fun s => (s.ctl, s.ran 0, s.ran 1, s.terminated))) = some (.idle, 2, 1, false) ∧
    ((run false (St.init : St Nat) [.start 1 false, .test 0, .wake 0, .finish 0, .start 1 false]).map
      (fun s => s.terminated)) = some true := by decide +kernel

/-- The hypotheses of the last two findings are met by a reachable state. -/
theorem C46_stop_itself_example : ∃ s : St Nat, Reach false s ∧ s.terminated = false ∧ s.ctl = .idle ∧ s.map 1 = some 0 ∧ s.tasks 0 = some ⟨true, true, .inTask⟩ :=
  ⟨_, ((Reach.init.step (.start 1 true) rfl).step (.test 0) rfl).step (.wake 0) rfl, rfl, rfl, rfl, rfl⟩

end Verif.Sched
