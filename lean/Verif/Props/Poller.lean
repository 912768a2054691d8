import Verif.Model.Poller

/-! Properties of the pollers (C46). -/

namespace Verif.Poller

structure Inv (s : St) : Prop where
  started : s.th ≠ .absent → s.started = true ∨ s.ctl = .dead
  waiting : s.ctl = .waiting → s.started = true
  joining : s.ctl = .joining → s.started = true
  noth : s.threw = false → s.ctl ≠ .waiting → s.th ≠ .spawned
  stopped : (s.ctl = .joining ∨ s.ctl = .joiningD) → s.threw = false → s.running = false
  dead : s.ctl = .dead → s.th = .absent
  live : s.ctl = .waiting → s.th ≠ .absent
  quiet : s.threw = false → s.th = .absent → s.running = false
  spawnedWait : s.threw = false → s.th = .spawned → s.running = false

theorem Inv.init : Inv St.init := by constructor <;> simp [St.init]

theorem Inv.step {s s' : St} (h : Inv s) (a : Act) (hs : step s a = some s') : Inv s' := by
  obtain ⟨h1, h2, h3, h4, h5, h6, h7, h10, h9⟩ := h
  cases a <;> simp only [Poller.step] at hs <;> (repeat' split at hs) <;> (try cases hs) <;>
    constructor <;> simp_all
  intro hc
  cases ht : s.threw with
  | true => rfl
  | false => rw [h4 ht] at hc; simp at hc

theorem Reach.inv {s : St} (h : Reach s) : Inv s := by
  induction h with
  | init => exact Inv.init
  | step a _ hs ih => exact ih.step a hs

/-! ### Nothing is called after stop -/

theorem quiet_step {s s' : St} (hth : s.th = .absent) (a : Act) (ha : a ≠ .callStart) (hs : step s a = some s') :
    s'.th = .absent ∧ s'.calls = s.calls := by
  cases a <;> simp only [step] at hs <;> (repeat' split at hs) <;> (try cases hs) <;> simp_all

/-- **C46**, poller: when `stop` has returned, `takeEventFromQueue` is not running and is not called again before the next
`start`, in any continuation. -/
theorem C46_poller_stopped {s0 s s' : St} (hj : step s0 .joined = some s) (as : List Act) (ha : .callStart ∉ as)
    (hr : run s as = some s') : s'.th = .absent ∧ s'.calls = s.calls := by
  have hth : s.th = .absent := by
    simp only [step] at hj
    split at hj <;> cases hj; rfl
  clear hj
  induction as generalizing s with
  | nil => cases hr; exact ⟨hth, rfl⟩
  | cons a as ih =>
    simp only [run] at hr
    split at hr
    · cases hr
    rename_i s1 hs1
    obtain ⟨h1, h2⟩ := quiet_step hth a (fun h => ha (h ▸ List.mem_cons_self)) hs1
    obtain ⟨h3, h4⟩ := ih (fun h => ha (List.mem_cons_of_mem _ h)) hr h1
    exact ⟨h3, h4.trans h2⟩

/-! ### stop returns -/

/-- Steps the polling thread still makes once `_running` is false. -/
def Th.rank : Th → Nat
  | .inCall => 2
  | .loop => 1
  | _ => 0

/-- **C46**, poller: if no `start` has thrown, `stop` returns: while it joins, every step of the polling thread brings the thread nearer
to its end (at most two steps, no new call), and when it has ended `stop` goes on.
Missing: executions in which `start` has thrown, `C46_violation_stop_hangs`. -/
theorem C46_poller_stop_returns_partial {s : St} (h : Reach s) (hc : s.ctl = .joining) (ht : s.threw = false) :
    (s.th.rank = 0 ↔ (step s .joined).isSome = true) ∧
    (0 < s.th.rank → ∃ a, a.isThread = true ∧ (step s a).isSome = true) ∧
    (∀ a s', a.isThread = true → step s a = some s' → s'.th.rank < s.th.rank ∧ s'.ctl = .joining ∧ s'.threw = false ∧
      s'.calls = s.calls) ∧
    (∀ a, a.isThread = false → a ≠ .joined → step s a = none) := by
  have hi := h.inv
  have hsp : s.th ≠ .spawned := hi.noth ht (by rw [hc]; simp)
  have hru : s.running = false := hi.stopped (Or.inl hc) ht
  refine ⟨?_, ?_, ?_, ?_⟩
  · cases hth : s.th <;> simp_all [Th.rank, step]
  · intro hr
    cases hth : s.th <;> rw [hth] at hr <;> simp [Th.rank] at hr
    · exact ⟨.test, rfl, by simp [step, hth, hru]⟩
    · exact ⟨.ret, rfl, by simp [step, hth]⟩
  · intro a s' ha hs
    cases a <;> simp [Act.isThread] at ha <;> simp only [step] at hs <;> (repeat' split at hs) <;> (try cases hs) <;>
      simp_all [Th.rank]
  · intro a ha hj
    cases a <;> simp [Act.isThread] at ha <;> simp_all [step]

/-- The state in which `stop` waits for a thread that was told to run after it was told to stop. -/
def Hung (s : St) : Prop := s.ctl = .joining ∧ s.running = true ∧ (s.th = .loop ∨ s.th = .inCall)

theorem Hung.step {s s' : St} (h : Hung s) (a : Act) (ha : a ≠ .throwing) (hs : step s a = some s') : Hung s' := by
  obtain ⟨h1, h2, h3⟩ := h
  cases a <;> simp only [Poller.step] at hs <;> (repeat' split at hs) <;> (try cases hs) <;> simp_all [Hung]
  rename_i hj
  rcases hj.2 with hj | hj <;> simp [hj] at h3

/-- **C46** fails: if `start` gave up before the new thread ran, `stop` may hang for ever: a state is reachable from which no
continuation, unless a listener throws, lets `stop` return. -/
theorem C46_violation_stop_hangs : ∃ s, Reach s ∧ s.ctl = .joining ∧
    ∀ as s', .throwing ∉ as → run s as = some s' → s'.ctl = .joining := by
  refine ⟨⟨true, true, .loop, .joining, true, 0, false, true⟩, ?_, rfl, ?_⟩
  · exact (((Reach.init.step .callStart rfl).step .timeout rfl).step .callStop rfl).step .begin rfl
  · have key : ∀ as (s s' : St), .throwing ∉ as → Hung s → run s as = some s' → s'.ctl = .joining := by
      intro as
      induction as with
      | nil => intro s s' _ h hr; cases hr; exact h.1
      | cons a as ih =>
        intro s s' ha h hr
        simp only [run] at hr
        split at hr
        · cases hr
        rename_i s1 hs1
        exact ih s1 s' (fun hm => ha (List.mem_cons_of_mem _ hm)) (h.step a (fun e => ha (e ▸ List.mem_cons_self)) hs1) hr
    intro as s' ha hr
    exact key as _ s' ha ⟨rfl, rfl, Or.inl rfl⟩ hr

/-- C46, after an exception: once a listener has thrown, and until `stop` is called, the poller still says that it is started and running,
a further `start` changes nothing, and `takeEventFromQueue` is never called again. -/
theorem C46_thrown_dead {s s1 s2 : St} (hr : Reach s) (ht : step s .throwing = some s1) (hn : s.threw = false) (hc : s.ctl = .idle)
    (hrun : s.running = true) (as : List Act) (ha : .callStop ∉ as) (hd : .destroyDerived ∉ as) (h : run s1 as = some s2) :
    s2.started = true ∧ s2.running = true ∧ s2.th = .done ∧ s2.calls = s1.calls := by
  have h0 : s1.started = true ∧ s1.running = true ∧ s1.th = .done ∧ s1.ctl = .idle := by
    simp only [step] at ht
    split at ht <;> cases ht
    rename_i hin
    refine ⟨?_, hrun, rfl, hc⟩
    rcases hr.inv.started (by rw [hin]; simp) with h | h
    · exact h
    · rw [hc] at h; cases h
  clear ht hr hrun hc hn
  induction as generalizing s1 with
  | nil => cases h; exact ⟨h0.1, h0.2.1, h0.2.2.1, rfl⟩
  | cons a as ih =>
    simp only [run] at h
    split at h
    · cases h
    rename_i s3 hs3
    have hk : s3 = s1 := by
      obtain ⟨h1, h2, h3, h4⟩ := h0
      have hne : a ≠ .callStop := fun e => ha (e ▸ List.mem_cons_self)
      have hne' : a ≠ .destroyDerived := fun e => hd (e ▸ List.mem_cons_self)
      cases a <;> simp_all [step]
    subst hk
    exact ih (fun hm => ha (List.mem_cons_of_mem _ hm)) (fun hm => hd (List.mem_cons_of_mem _ hm)) h h0

/-- A reachable state in which the hypotheses of `C46_thrown_dead` hold, and a further `start` after the exception. -/
theorem C46_thrown_example : ∃ s, Reach s ∧ s.threw = false ∧ s.ctl = .idle ∧ s.running = true ∧ s.calls = 1 ∧ (step s .throwing).isSome = true ∧
    ((step s .throwing).bind (step · .callStart)).isSome = true :=
  ⟨_, (((Reach.init.step .callStart rfl).step .begin rfl).step .seeRunning rfl).step .test rfl, rfl, rfl, rfl, rfl, rfl, rfl⟩

/-! ### Destruction -/

/-- Executions in which a poller is destroyed only when it has no thread (never started, or stopped). -/
inductive ReachStopped : St → Prop where
  | init : ReachStopped St.init
  | step {s s'} (a : Act) (h : ReachStopped s) (ha : a = .destroyDerived → s.th = .absent) (hs : step s a = some s') : ReachStopped s'

/-- **C46**, poller: a poller destroyed after `stop` calls nothing on the destroyed object.
Missing: a poller destroyed while it runs, where it fails (`C46_violation_destroy_running`). -/
theorem C46_poller_destroy_partial {s : St} (h : ReachStopped s) : s.bad = false := by
  have key : s.bad = false ∧ (s.derived = false → s.th = .absent ∧ (s.ctl = .destroying ∨ s.ctl = .joiningD ∨ s.ctl = .dead)) := by
    induction h with
    | init => simp [St.init]
    | step a _ ha hs ih =>
      obtain ⟨i1, i2⟩ := ih
      cases a <;> simp only [Poller.step] at hs <;> (repeat' split at hs) <;> (try cases hs) <;> simp_all
  exact key.1

/-- **C46** fails: a running poller that is destroyed without `stop` may call `takeEventFromQueue` of the destroyed derived object:
the base class joins the thread only after the derived class is gone. -/
theorem C46_violation_destroy_running : ∃ s, Reach s ∧ s.bad = true ∧ s.threw = false := by
  refine ⟨⟨true, true, .inCall, .destroying, false, 1, true, false⟩, ?_, rfl, rfl⟩
  exact ((((Reach.init.step .callStart rfl).step .begin rfl).step .seeRunning rfl).step .destroyDerived rfl).step .test rfl

/-- A run of two start/stop cycles with calls in between, the last of which throws, and a destruction at the end. -/
theorem C46_poller_example : (run St.init [.callStart, .begin, .test, .seeRunning, .ret, .test, .callStop, .ret, .test, .joined,
    .callStop, .callStart, .begin, .seeRunning, .callStart, .test, .throwing, .callStop, .joined, .destroyDerived, .destroyBase,
    .joinedD]).map (fun s => (s.calls, s.ctl, s.bad, s.threw)) = some (3, .dead, false, false) := by decide +kernel

end Verif.Poller
