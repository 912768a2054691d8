import Verif.Lemmas.ElSched
import Verif.Props.MultiRing

/-!
C86: the scheduler of an event loop, from the firing of a task to its call on the thread of the loop.  Model: Model/ElSched.lean, specification: Spec/ElSched.lean.
-/

namespace Verif.ElS
open Verif

variable {D κ : Type} [DecidableEq D] [DecidableEq κ]

/-! ### Accounts -/

omit [DecidableEq D] in
theorem accepted_eq (s : St D κ) : accepted s = (accTasks s.el.loop).reverse := by
  simp [accepted, accTasks, EvLoop.acceptedInOrder, List.filterMap_reverse]

/-- **C86**: every firing of every task is accepted by the ring, or refused, or still inside `publish`. -/
theorem C86_firings_accounted {k : Nat} (hk : k ≤ 30) {c : Bool} {kind : ElD.Kind} {s : St D κ} (h : Reach k c kind s) (id : Nat) :
    (firings s).count id = (accepted s).count id + s.lost.count id + undecided s id := by
  rw [accepted_eq, List.count_reverse]
  exact (h.inv hk).li.acct id

/-- **C86**: the discard counter of the scheduler's publisher is the number of refused firings. -/
theorem C86_refusals_counted {k : Nat} (hk : k ≤ 30) {c : Bool} {kind : ElD.Kind} {s : St D κ} (h : Reach k c kind s) {t : String} (ht : s.el.sched = some t) :
    s.el.loop.discarded t = s.lost.length := (h.inv hk).d1 t ht

/-! ### Accepted firings are called -/

omit [DecidableEq D] in
theorem startedTasks_taken {k : Nat} (hk : k ≤ 30) {c : Bool} {kind : ElD.Kind} {s : ElD.St D Nat} (h : ElD.Reach k c kind ElD.OkDrained s) :
    startedTasks s.hist = ((EvLoop.acceptedInOrder s.loop).take (ElD.starts s.hist).length).filterMap fun a => asTask a.2.2.1 := by
  unfold startedTasks
  conv_lhs => rw [(ElD.C79_taken_up_in_order hk h).1]
  rw [List.filterMap_map]
  rfl

/-- **C86**: the loop calls the function of every accepted firing once, in the order of acceptance, with nothing left out up to the event it is at: what has been
called are the firings among the events the loop has taken up, except for the one it is about to call, also if functions or listeners throw. -/
theorem C86_called_once_in_order {k : Nat} (hk : k ≤ 30) {c : Bool} {kind : ElD.Kind} {s : St D κ} (h : Reach k c kind s) :
    ∃ r, called s.el.hist ++ r = ((EvLoop.acceptedInOrder s.el.loop).take (ElD.starts s.el.hist).length).filterMap (fun a => asTask a.2.2.1) ∧
      r.length ≤ 1 ∧ (s.el.del = none → r = []) := by
  refine ⟨pendTask s.el.del, ?_, ?_, ?_⟩
  · rw [(reach_J hk h.el).all, startedTasks_taken hk h.el]
  · unfold pendTask; split <;> simp
  · intro e; rw [e]; rfl

theorem called_prefix {k : Nat} (hk : k ≤ 30) {c : Bool} {kind : ElD.Kind} {s : St D κ} (h : Reach k c kind s) : called s.el.hist <+: accepted s := by
  obtain ⟨r, h1, _⟩ := C86_called_once_in_order hk h
  refine (List.prefix_append _ r).trans ?_
  rw [h1]
  exact (List.take_prefix _ _).filterMap _

/-- **C86**: no task is called more often than it has fired. -/
theorem C86_not_more_calls_than_firings {k : Nat} (hk : k ≤ 30) {c : Bool} {kind : ElD.Kind} {s : St D κ} (h : Reach k c kind s) (id : Nat) :
    (called s.el.hist).count id ≤ (firings s).count id := by
  have h1 := (called_prefix hk h).sublist.count_le id
  have h2 := C86_firings_accounted hk h id
  omega

/-- **C86**: when the loop has taken up everything and is done with it, every task has been called as often as it has fired, less the refused firings. -/
theorem C86_drained {k : Nat} (hk : k ≤ 30) {c : Bool} {kind : ElD.Kind} {s : St D κ} (h : Reach k c kind s)
    (hall : (ElD.starts s.el.hist).length = (EvLoop.acceptedInOrder s.el.loop).length) (hd : s.el.del = none) (id : Nat) :
    (firings s).count id = (called s.el.hist).count id + s.lost.count id + undecided s id := by
  obtain ⟨r, h1, _, h3⟩ := C86_called_once_in_order hk h
  rw [h3 hd, List.append_nil, hall, List.take_length] at h1
  rw [C86_firings_accounted hk h id, h1]
  rfl

/-! ### stopScheduledTask -/

theorem Steps.reach {k : Nat} {c : Bool} {kind : ElD.Kind} {s s' : St D κ} (h : Reach k c kind s) (hs : Steps k c s s') : Reach k c kind s' := by
  induction hs with
  | refl => exact h
  | step _ hok hst ih => exact ih.step hok hst

theorem step_mono {k : Nat} (hk : k ≤ 30) {c : Bool} {kind : ElD.Kind} {s s' : St D κ} (hr : Reach k c kind s) {a : Act D κ} (hs : step k c s a = some s') (id : Nat) :
    (accTasks s.el.loop).count id ≤ (accTasks s'.el.loop).count id ∧ s.lost.count id ≤ s'.lost.count id := by
  obtain ⟨A, ls, _, hi⟩ := ElD.Reach.inv hk (ElD.Reach.mono (fun _ _ h => h.1) hr.el)
  have mono : ∀ {b : EvLoop.Act (ElD.Msg D Nat)}, EvLoop.step k s.el.loop b = some s'.el.loop → (accTasks s.el.loop).count id ≤ (accTasks s'.el.loop).count id := by
    intro b hb
    have e := EvLoop.step_eff hi.loop.pcInv hb
    have : s'.el.loop.accepted = s.el.loop.accepted ∨ ∃ x, s'.el.loop.accepted = x :: s.el.loop.accepted := by
      generalize s'.el.loop = l' at e
      cases e with
      | got p t d h1 h2 h' => exact .inr ⟨_, by rw [h']⟩
      | call | refused | more | weak | write | publish | start | run | lookNone | look | scan | event | batchEnd | finish | throw | stop =>
        rename l' = _ => h'; exact .inl (by rw [h'])
    rcases this with e | ⟨x, e⟩
    · simp [accTasks, e]
    · simp only [accTasks, e, List.filterMap_cons]
      split
      · exact Nat.le_refl _
      · exact List.count_le_count_cons
  rcases (step_cases hs).2 with ⟨e1, e2, _⟩ | ⟨i, t, _, _, e2, _, h4⟩ | ⟨r, _, _, e2, h3⟩ | ⟨x, _, hx, _, h3, h2⟩
  · rw [e1, e2]; exact ⟨Nat.le_refl _, Nat.le_refl _⟩
  · rw [e2]; exact ⟨mono (el_loop h4), Nat.le_refl _⟩
  · rw [e2]
    rcases el_call h3 with e | e
    · rw [e]; exact ⟨Nat.le_refl _, Nat.le_refl _⟩
    · exact ⟨mono e, Nat.le_refl _⟩
  · refine ⟨?_, by rw [h2, List.count_append]; omega⟩
    by_cases hl : ∃ y, x = .loop y
    · obtain ⟨y, rfl⟩ := hl
      exact mono (el_loop h3)
    · have hc : ∀ r, x ≠ .call r := by rintro r rfl; simp [free] at hx
      rw [el_other h3 (fun y e => hl ⟨y, e⟩) hc]

theorem over_step {k : Nat} {c : Bool} {kind : ElD.Kind} {s s' : St D κ} (hr : Reach k c kind s) {a : Act D κ} (hs : step k c s a = some s') {id : Nat}
    (ho : Sched.Over s.sch id) : Sched.Over s'.sch id ∧ s'.sch.queue.count id = s.sch.queue.count id := by
  have main : ∀ b, b ≠ .loop → Sched.step true s.sch b = some s'.sch → Sched.Over s'.sch id ∧ s'.sch.queue.count id = s.sch.queue.count id := by
    intro b hb h
    obtain ⟨g1, _, g3⟩ := Sched.over_step hr.sch.inv ho b h
    refine ⟨g1, ?_⟩
    have : s'.sch.ran = s.sch.ran := by
      unfold Sched.step at h
      split at h
      · cases h
      generalize s'.sch = z at h
      cases b with
      | loop => exact absurd rfl hb
      | _ => simp only [if_true] at h; (repeat' split at h) <;> first | (cases h; done) | (cases h; rfl)
    rw [this] at g3
    omega
  rcases (step_cases hs).2 with ⟨_, _, e | ⟨b, b1, b2, b3, b4⟩⟩ | ⟨i, t, _, _, _, h3, _⟩ | ⟨r, _, e, _⟩ | ⟨x, _, _, e, _⟩
  · rw [e]; exact ⟨ho, rfl⟩
  · exact main b b3 b4
  · exact main (.wake i) nofun h3
  · rw [e]; exact ⟨ho, rfl⟩
  · rw [e]; exact ⟨ho, rfl⟩

/-- **C86**: when `stopScheduledTask` has returned, the task does not fire again, nothing of it is accepted or refused any more, and it is called at most for the
firings accepted before: with these the loop is done at some point, and after that the task is not called again.
Missing: calls after `stopScheduledTask` has returned do occur, `C86_violation_called_after_stop`. -/
theorem C86_stopped_partial {k : Nat} (hk : k ≤ 30) {c : Bool} {kind : ElD.Kind} {s s1 s2 : St D κ} (hr : Reach k c kind s) {n : κ} {id : Nat}
    (hc : s.sch.ctl = .joining n id) (hs : step k c s .joined = some s1) (h2 : Steps k c s1 s2) :
    (firings s2).count id = (firings s1).count id ∧ (accepted s2).count id = (accepted s1).count id ∧ s2.lost.count id = s1.lost.count id ∧
    (called s2.el.hist).count id ≤ (accepted s1).count id ∧
    (called s1.el.hist).count id ≤ (called s2.el.hist).count id := by
  have hr1 : Reach k c kind s1 := hr.step (a := .joined) trivial hs
  have ho1 : Sched.Over s1.sch id := by
    unfold ElS.step at hs
    split at hs
    · cases hs
    obtain ⟨r, hr', rfl⟩ := Option.map_eq_some_iff.mp hs
    exact (Sched.joined_over hc hr').1
  have idle : ∀ {s' : St D κ}, Reach k c kind s' → Sched.Over s'.sch id → undec s'.el.loop (thr id) = 0 := by
    intro s' hr' ⟨t, ht, hp⟩
    cases hq : s'.el.loop.pc (thr id) with
    | idle => simp [undec, hq]
    | _ =>
      obtain ⟨tk, k1, k2⟩ := (hr'.inv hk).busy id (by rw [hq]; nofun)
      rw [ht] at k1; cases k1
      rw [hp] at k2; cases k2
  have main : Sched.Over s2.sch id ∧ s2.sch.queue.count id = s1.sch.queue.count id ∧ (accTasks s1.el.loop).count id ≤ (accTasks s2.el.loop).count id ∧
      s1.lost.count id ≤ s2.lost.count id ∧ (called s1.el.hist).count id ≤ (called s2.el.hist).count id := by
    induction h2 with
    | refl => exact ⟨ho1, rfl, Nat.le_refl _, Nat.le_refl _, Nat.le_refl _⟩
    | @step s3 s4 a h3 hok hst ih =>
      obtain ⟨i1, i2, i3, i4, i5⟩ := ih
      have hr3 := Steps.reach hr1 h3
      obtain ⟨g1, g2⟩ := over_step hr3 hst i1
      obtain ⟨g3, g4⟩ := step_mono hk hr3 hst id
      refine ⟨g1, g2.trans i2, i3.trans g3, i4.trans g4, i5.trans ?_⟩
      have hpre : called s3.el.hist <+: called s4.el.hist := by
        obtain ⟨A, ls, _, hi⟩ := ElD.Reach.inv hk (ElD.Reach.mono (fun _ _ h => h.1) hr3.el)
        have ext : ∀ {x : ElD.Act D Nat}, ElD.Ok s3.el x ∧ ElD.OkPtr s3.el x → ElD.step k c s3.el x = some s4.el → called s3.el.hist <+: called s4.el.hist := by
          intro x hx h
          obtain ⟨evs, _, _, he, _⟩ := hi.step hk hx.1 hx.2 h
          rw [he, called_append]
          exact List.prefix_append _ _
        rcases (step_cases hst).2 with ⟨e1, _, _⟩ | ⟨i, t, _, _, _, _, h4⟩ | ⟨r, _, _, _, h3⟩ | ⟨x, rfl, _, _, h3, _⟩
        · rw [e1]
        · exact ext (x := .loop (.call _ _ _)) ⟨trivial, trivial⟩ h4
        · exact ext (x := .call r) ⟨trivial, trivial⟩ h3
        · exact ext hok.1 h3
      exact hpre.sublist.count_le id
  obtain ⟨m1, m2, m3, m4, m5⟩ := main
  have hr2 := Steps.reach hr1 h2
  have a1 := (hr1.inv hk).li.acct id
  have a2 := (hr2.inv hk).li.acct id
  rw [idle hr1 ho1] at a1
  rw [idle hr2 m1] at a2
  have hacc : (accepted s2).count id = (accepted s1).count id := by
    rw [accepted_eq, accepted_eq, List.count_reverse, List.count_reverse]; omega
  refine ⟨m2, hacc, by omega, ?_, m5⟩
  rw [← hacc]
  exact (called_prefix hk hr2).sublist.count_le id

/-! #### The loop while it waits for a stop -/

/-- A stop under way that was called on the loop's thread was called by what the loop is running. -/
theorem Reach.byLoop {k : Nat} {c : Bool} {kind : ElD.Kind} {s : St D κ} (h : Reach k c kind s) : s.byLoop = true → s.sch.ctl ≠ .idle → s.inCall = true := by
  induction h with
  | init => intro h; cases h
  | @step s s' a _ _ hs ih =>
    have ctl : ∀ b s', (b ≠ .joined ∧ ∀ n, b ≠ .stop n) → Sched.step true s.sch b = some s' → s'.ctl = s.sch.ctl := by
      intro b s' ⟨hb1, hb2⟩ h
      unfold Sched.step at h
      split at h
      · cases h
      cases b with
      | joined => exact absurd rfl hb1
      | stop n => exact absurd rfl (hb2 n)
      | _ => simp only [if_true] at h; (repeat' split at h) <;> first | (cases h; done) | (cases h; rfl)
    unfold ElS.step at hs
    split at hs
    · cases hs
    cases a with
    | start b n r =>
      simp only [lift] at hs
      split at hs
      · obtain ⟨r', h, rfl⟩ := Option.map_eq_some_iff.mp hs
        intro h1 h2
        exact ih h1 (by rw [← ctl (.start n r) _ ⟨nofun, nofun⟩ h]; exact h2)
      · cases hs
    | stop b n =>
      simp only at hs
      split at hs
      · rename_i hc
        obtain ⟨r', h, rfl⟩ := Option.map_eq_some_iff.mp hs
        intro h1 _
        simp only at h1
        simp only [Bool.and_eq_true, h1, Bool.not_true, Bool.false_or] at hc
        exact hc.2
      · cases hs
    | joined =>
      obtain ⟨r', h, rfl⟩ := Option.map_eq_some_iff.mp hs
      intro _ h2
      refine absurd ?_ h2
      unfold Sched.step at h
      split at h
      · cases h
      simp only at h
      (repeat' split at h) <;> first | (cases h; done) | (cases h; rfl)
    | test i =>
      obtain ⟨r', h, rfl⟩ := Option.map_eq_some_iff.mp hs
      intro h1 h2
      exact ih h1 (by rw [← ctl (.test i) _ ⟨nofun, nofun⟩ h]; exact h2)
    | finish i =>
      simp only [lift] at hs
      split at hs
      · obtain ⟨r', h, rfl⟩ := Option.map_eq_some_iff.mp hs
        intro h1 h2
        exact ih h1 (by rw [← ctl (.finish i) _ ⟨nofun, nofun⟩ h]; exact h2)
      · cases hs
    | wake i =>
      simp only at hs
      split at hs
      · cases hs
      split at hs <;> cases hs
      rename_i r' _ h _
      intro h1 h2
      exact ih h1 (by rw [← ctl (.wake i) _ ⟨nofun, nofun⟩ h]; exact h2)
    | enter =>
      simp only at hs
      split at hs <;> cases hs
      intro _ _; rfl
    | leave r =>
      simp only at hs
      split at hs
      · rename_i hc
        obtain ⟨_, _, rfl⟩ := Option.map_eq_some_iff.mp hs
        intro h1 h2
        simp only at h1 h2
        simp [h1, h2] at hc
      · cases hs
    | el x =>
      simp only at hs
      split at hs
      · obtain ⟨_, _, rfl⟩ := Option.map_eq_some_iff.mp hs
        exact ih
      · cases hs

omit [DecidableEq D] in
theorem allCalls_append (h h' : List (ElD.Ev (ElD.Msg D Nat))) : allCalls (h ++ h') = allCalls h ++ allCalls h' := by simp [allCalls]

omit [DecidableEq D] in
theorem step_allCalls {k : Nat} {c : Bool} {s s' : ElD.St D Nat} {x : ElD.Act D Nat} (hs : ElD.step k c s x = some s') (h : ∀ r, x ≠ .call r) :
    allCalls s'.hist = allCalls s.hist := by
  have ws : ∀ {i : Nat} {f : ElD.Sub → Option (ElD.St D Nat)}, (∀ o s', f o = some s' → allCalls s'.hist = allCalls s.hist) → ElD.withSub s i f = some s' →
      allCalls s'.hist = allCalls s.hist := by
    intro i f hf h
    simp only [ElD.withSub] at h
    split at h
    · split at h
      · cases h; simp [allCalls]
      · exact hf _ _ h
    · cases h; simp [allCalls]
    · cases h
  cases x with
  | call r => exact absurd rfl (h r)
  | getPublisher n => simp only [ElD.step] at hs; split at hs <;> cases hs <;> simp [allCalls]
  | getSubscriber n kd => simp only [ElD.step] at hs; (repeat' split at hs) <;> first | (cases hs; done) | (cases hs; rfl)
  | getScheduler n =>
    simp only [ElD.step] at hs
    split at hs
    · cases hs; rfl
    · split at hs
      · cases hs
        simp only [ElD.makeScheduler]
        split
        · simp only [ElD.destroy]
          split <;> (simp only [allCalls_append]; split <;> simp [allCalls])
        · simp only [allCalls_append]; split <;> simp [allCalls]
      · cases hs
  | reg i l =>
    refine ws ?_ hs
    intro o s1 h1
    split at h1 <;> cases h1
    simp [allCalls]
  | once i =>
    refine ws ?_ hs
    intro o s1 h1
    split at h1 <;> cases h1 <;> simp [allCalls]
  | rem i l =>
    refine ws ?_ hs
    intro o s1 h1
    (repeat' split at h1) <;> first | (cases h1; done) | (cases h1; simp [allCalls])
  | loop a =>
    cases a with
    | advance =>
      simp only [ElD.step] at hs
      (repeat' split at hs) <;> first | (cases hs; done) | (cases hs; rfl) | (cases hs; simp [allCalls])
    | finish =>
      simp only [ElD.step] at hs
      split at hs
      · obtain ⟨_, _, rfl⟩ := Option.map_eq_some_iff.mp hs; simp [allCalls]
      · cases hs
    | throw => cases hs
    | _ =>
      simp only [ElD.step] at hs
      split at hs
      · obtain ⟨_, _, rfl⟩ := Option.map_eq_some_iff.mp hs; rfl
      · cases hs

/-- **C86**: tasks and listeners are called one at a time: a call is recorded only when the one function or listener the loop has entered returns or throws. -/
theorem C86_one_at_a_time {k : Nat} {c : Bool} {s s' : St D κ} {a : Act D κ} (hs : step k c s a = some s') (h : allCalls s'.el.hist ≠ allCalls s.el.hist) :
    (∃ ret, a = .leave ret) ∧ s.inCall = true ∧ s'.inCall = false := by
  rcases (step_cases hs).2 with ⟨e1, _, _⟩ | ⟨i, t, _, _, _, _, h4⟩ | ⟨r, rfl, _, _, h3⟩ | ⟨x, _, hx, _, h3, _⟩
  · rw [e1] at h; exact absurd rfl h
  · exact absurd (step_allCalls h4 nofun) h
  · unfold ElS.step at hs
    split at hs
    · cases hs
    simp only at hs
    split at hs
    · rename_i hc
      obtain ⟨_, _, rfl⟩ := Option.map_eq_some_iff.mp hs
      exact ⟨⟨r, rfl⟩, by simp only [Bool.and_eq_true] at hc; exact hc.1, rfl⟩
    · cases hs
  · exact absurd (step_allCalls h3 (by rintro r rfl; simp [free] at hx)) h

/-- A delivery with a listener still to be called is only changed by a call. -/
theorem step_todo {k : Nat} {c : Bool} {s s' : ElD.St D Nat} {x : ElD.Act D Nat} (hd : s.del.isSome = true → ∃ nx av, s.loop.ring.cp 0 = .handle nx av) (hx : ∀ r, x ≠ .call r)
    {m : ElD.Msg D Nat} {t : Nat × ElD.Handler} {rest : List (Nat × ElD.Handler)} (h : s.del = some ⟨some m, t :: rest⟩) (hs : ElD.step k c s x = some s') : s'.del = s.del := by
  have sub : ∀ {i : Nat} {f : ElD.Sub → Option (ElD.St D Nat)}, (∀ o s'', f o = some s'' → s''.del = s.del) → ElD.withSub s i f = some s' → s'.del = s.del := by
    intro i f hf hw
    unfold ElD.withSub at hw
    split at hw
    · split at hw
      · cases hw; rfl
      · exact hf _ _ hw
    · cases hw; rfl
    · cases hw
  cases x with
  | call r => exact absurd rfl (hx r)
  | getPublisher n => simp only [ElD.step] at hs; split at hs <;> cases hs <;> rfl
  | getSubscriber n kind => simp only [ElD.step] at hs; (repeat' split at hs) <;> cases hs <;> rfl
  | getScheduler n =>
    simp only [ElD.step] at hs
    (repeat' split at hs) <;> cases hs
    · rfl
    · simp only [ElD.makeScheduler, ElD.destroy]
      (repeat' split) <;> rfl
  | reg i l =>
    refine sub (fun o s'' e => ?_) hs
    split at e <;> cases e
    rfl
  | once i =>
    refine sub (fun o s'' e => ?_) hs
    split at e <;> cases e <;> rfl
  | rem i l =>
    refine sub (fun o s'' e => ?_) hs
    (repeat' split at e) <;> cases e <;> rfl
  | loop a =>
    cases a with
    | advance =>
      simp only [ElD.step] at hs
      split at hs
      · cases hs
      · rename_i l hl
        obtain ⟨nx, av, hh⟩ := hd (by rw [h]; rfl)
        simp only [EvLoop.step, hh] at hl
        cases hl
    | finish =>
      simp only [ElD.step, h] at hs
      cases hs
    | throw => simp only [ElD.step] at hs; cases hs
    | _ =>
      simp only [ElD.step] at hs
      split at hs
      · obtain ⟨_, _, rfl⟩ := Option.map_eq_some_iff.mp hs; rfl
      · cases hs

/-- **C86**: the loop is inside a task or a listener only while an event or a task it has taken up is being delivered, and a listener of it has not been called yet. -/
theorem C86_in_a_delivery {k : Nat} (hk : k ≤ 30) {c : Bool} {kind : ElD.Kind} {s : St D κ} (h : Reach k c kind s) :
    s.inCall = true → ∃ m t rest, s.el.del = some ⟨some m, t :: rest⟩ := by
  induction h with
  | init => intro h; cases h
  | @step s s' a hr hok hs ih =>
    obtain ⟨_, _, _, hi⟩ := ElD.Reach.inv hk (ElD.Reach.mono (fun _ _ h => h.1) hr.el)
    have keep : s.inCall = true → s'.el.del = s.el.del → ∃ m t rest, s'.el.del = some ⟨some m, t :: rest⟩ := fun h1 h2 => by rw [h2]; exact ih h1
    have same : s'.el = s.el ∧ s'.inCall = s.inCall → s'.inCall = true → ∃ m t rest, s'.el.del = some ⟨some m, t :: rest⟩ := by
      rintro ⟨h1, h2⟩ h3
      rw [h2] at h3
      exact keep h3 (by rw [h1])
    unfold ElS.step at hs
    split at hs
    · cases hs
    cases a with
    | enter =>
      simp only at hs
      split at hs <;> cases hs
      rename_i hc
      intro _
      simp only [Bool.and_eq_true, atCall] at hc
      obtain ⟨hc, _⟩ := hc
      split at hc
      · rename_i e; exact ⟨_, _, _, e⟩
      · cases hc
    | leave r =>
      simp only at hs
      split at hs
      · obtain ⟨_, _, rfl⟩ := Option.map_eq_some_iff.mp hs
        intro h; cases h
      · cases hs
    | wake id =>
      simp only at hs
      split at hs
      · cases hs
      · split at hs
        · rename_i r l e1 e2
          cases hs
          intro hin
          obtain ⟨m, t, rest, e⟩ := ih hin
          exact keep hin (step_todo hi.hd.mp (fun _ h => by cases h) e e2)
        · cases hs
    | el x =>
      simp only at hs
      split at hs
      · rename_i hf
        obtain ⟨l, e2, rfl⟩ := Option.map_eq_some_iff.mp hs
        intro hin
        obtain ⟨m, t, rest, e⟩ := ih hin
        exact keep hin (step_todo hi.hd.mp (by rintro r rfl; simp [free] at hf) e e2)
      · cases hs
    | _ =>
      simp only [lift] at hs
      (repeat' split at hs) <;> first | (cases hs; done) | (obtain ⟨_, _, rfl⟩ := Option.map_eq_some_iff.mp hs; exact same ⟨rfl, rfl⟩)

/-- **C86**: when a task or listener calls `stopScheduledTask`, the loop is in that call until `stopScheduledTask` has returned: nothing else is called. -/
theorem C86_loop_waits_for_stop {k : Nat} {c : Bool} {kind : ElD.Kind} {s s' : St D κ} (hr : Reach k c kind s) (hb : s.byLoop = true) (hc : s.sch.ctl ≠ .idle) {a : Act D κ}
    (hs : step k c s a = some s') : s.inCall = true ∧ s'.inCall = true ∧ allCalls s'.el.hist = allCalls s.el.hist := by
  have hin := hr.byLoop hb hc
  have hnl : ∀ r, a ≠ .leave r := by
    rintro r rfl
    unfold ElS.step at hs
    split at hs
    · cases hs
    simp [hb, hc] at hs
  refine ⟨hin, ?_, ?_⟩
  · unfold ElS.step at hs
    split at hs
    · cases hs
    cases a with
    | leave r => exact absurd rfl (hnl r)
    | _ =>
      simp only [lift] at hs
      (repeat' split at hs) <;> first | (cases hs; done) | (obtain ⟨_, _, rfl⟩ := Option.map_eq_some_iff.mp hs; exact hin) | (cases hs; first | exact hin | rfl)
  · apply Classical.byContradiction
    intro h
    obtain ⟨⟨r, rfl⟩, _⟩ := C86_one_at_a_time hs h
    exact hnl r rfl

/-! #### It returns -/

/-- Steps to the end of `try_next` if nobody interferes. -/
def tryRank {V : Type} (r : MRing.St V) : MRing.PPc → Nat
  | .tLoad _ => r.gating.length + 5
  | .tCache _ cur => r.gating.length + 4 + if cur = r.cursor then 0 else r.gating.length + 6
  | .tScan _ cur rest _ => rest.length + 3 + if cur = r.cursor then 0 else r.gating.length + 6
  | .tSet _ cur _ => 2 + if cur = r.cursor then 0 else r.gating.length + 6
  | .tCas _ cur => 1 + if cur = r.cursor then 0 else r.gating.length + 6
  | _ => 0

omit [DecidableEq D] in
theorem try_solo {B : Int} {r : MRing.St (EvLoop.Val (ElD.Msg D Nat))} {p : Nat} (ht : EvLoop.Trying (r.pp p)) :
    ∃ r', MRing.pstep B r p = some r' ∧ (r'.pp p = .idle ∨ tryRank r' (r'.pp p) < tryRank r (r.pp p)) := by
  cases hp : r.pp p <;> rw [hp] at ht <;> simp only [EvLoop.Trying] at ht
  case tLoad n => exact ⟨_, by simp only [MRing.pstep, hp]; rfl, .inr (by simp [tryRank])⟩
  case tCache n cur =>
    by_cases h : Disr.toInt32 (Disr.toInt32 cur + n) - B > r.cache ∨ r.cache > Disr.toInt32 cur
    · exact ⟨_, by simp only [MRing.pstep, hp, if_pos h]; rfl, .inr (by simp [tryRank])⟩
    · exact ⟨_, by simp only [MRing.pstep, hp, if_neg h]; rfl, .inr (by simp [tryRank])⟩
  case tScan n cur rest m =>
    cases rest with
    | nil => exact ⟨_, by simp only [MRing.pstep, hp]; rfl, .inr (by simp [tryRank])⟩
    | cons c rest => exact ⟨_, by simp only [MRing.pstep, hp]; rfl, .inr (by simp [tryRank])⟩
  case tSet n cur m =>
    by_cases h : Disr.toInt32 (Disr.toInt32 cur + n) - B > m
    · exact ⟨_, by simp only [MRing.pstep, hp, if_pos h]; rfl, .inl (by simp)⟩
    · exact ⟨_, by simp only [MRing.pstep, hp, if_neg h]; rfl, .inr (by simp [tryRank])⟩
  case tCas n cur =>
    by_cases h : r.cursor = cur
    · exact ⟨_, by simp only [MRing.pstep, hp, if_pos h]; rfl, .inl (by simp [MRing.claim])⟩
    · have h' : cur ≠ r.cursor := fun e => h e.symm
      exact ⟨_, by simp only [MRing.pstep, hp, if_neg h]; rfl, .inr (by simp [tryRank, h']; omega)⟩

omit [DecidableEq D] in
/-- A publishing thread on its own comes back from `publish`. -/
theorem solo_publish {k : Nat} {l : EvLoop.St (ElD.Msg D Nat)} {p : Nat} (hpc : EvLoop.PcInv l)
    (hown : ∀ t d x, l.pc p = .claimed t d x ∨ l.pc p = .written t d x → l.ring.owner x = some p) :
    ∃ as l', (∀ a ∈ as, EvLoop.PubTurn p a) ∧ EvLoop.run k l as = some l' ∧ l'.pc p = .idle := by
  have wr : ∀ (l : EvLoop.St (ElD.Msg D Nat)) (t d x), l.pc p = .written t d x → l.ring.owner x = some p →
      ∃ as l', (∀ a ∈ as, EvLoop.PubTurn p a) ∧ EvLoop.run k l as = some l' ∧ l'.pc p = .idle := by
    intro l t d x h ho
    have : ∃ l', EvLoop.step k l (.publish p) = some l' ∧ l'.pc p = .idle := by
      simp [EvLoop.step, h, MRing.step, ho]
    obtain ⟨l', h1, h2⟩ := this
    exact ⟨[.publish p], l', by simp [EvLoop.PubTurn], by simp only [EvLoop.run, h1], h2⟩
  have cl : ∀ (l : EvLoop.St (ElD.Msg D Nat)) (t d x), l.pc p = .claimed t d x → l.ring.owner x = some p →
      ∃ as l', (∀ a ∈ as, EvLoop.PubTurn p a) ∧ EvLoop.run k l as = some l' ∧ l'.pc p = .idle := by
    intro l t d x h ho
    have : ∃ l', EvLoop.step k l (.write p) = some l' ∧ l'.pc p = .written t d x ∧ l'.ring.owner x = some p := by
      simp [EvLoop.step, h, MRing.step, ho]
    obtain ⟨l', h1, h2, h3⟩ := this
    obtain ⟨as, l2, g1, g2, g3⟩ := wr l' t d x h2 h3
    exact ⟨.write p :: as, l2, by simpa [EvLoop.PubTurn] using g1, by simp only [EvLoop.run, h1]; exact g2, g3⟩
  have tr : ∀ (m : Nat) (l : EvLoop.St (ElD.Msg D Nat)) (t d), EvLoop.PcInv l → l.pc p = .claiming t d → tryRank l.ring (l.ring.pp p) ≤ m →
      ∃ as l', (∀ a ∈ as, EvLoop.PubTurn p a) ∧ EvLoop.run k l as = some l' ∧ l'.pc p = .idle := by
    intro m
    induction m with
    | zero =>
      intro l t d hi h hm
      have ht := hi p
      rw [h] at ht
      simp only [EvLoop.PcOk] at ht
      cases hp : l.ring.pp p <;> rw [hp] at ht hm <;> simp only [EvLoop.Trying] at ht <;> simp only [tryRank] at hm <;> omega
    | succ m ih =>
      intro l t d hi h hm
      have ht := hi p
      rw [h] at ht
      obtain ⟨r', h1, h2⟩ := try_solo (B := 2 ^ k) ht
      have hs : EvLoop.step k l (.claim p) = some (EvLoop.afterClaim l p t d r') := by
        simp only [EvLoop.step, h, MRing.step, h1, Option.map_some]
      have e := EvLoop.step_eff hi hs
      have hi' := hi.step e
      generalize hl' : EvLoop.afterClaim l p t d r' = l' at hs e hi'
      have fin : (∃ as l2, (∀ a ∈ as, EvLoop.PubTurn p a) ∧ EvLoop.run k l' as = some l2 ∧ l2.pc p = .idle) →
          ∃ as l2, (∀ a ∈ as, EvLoop.PubTurn p a) ∧ EvLoop.run k l as = some l2 ∧ l2.pc p = .idle := by
        rintro ⟨as, l2, g1, g2, g3⟩
        exact ⟨.claim p :: as, l2, by simpa [EvLoop.PubTurn] using g1, by simp only [EvLoop.run, hs]; exact g2, g3⟩
      apply fin
      have hring : l'.ring = r' := by rw [← hl']; simp only [EvLoop.afterClaim]; split <;> [split; skip] <;> rfl
      cases e with
      | got _ t d g1 g2 g => 
        refine cl l' t d (l.ring.cursor + 1) (by rw [g]; exact upd_same _ _ _) (by rw [g]; simp [MRing.claim])
      | refused _ t d m g1 g => exact ⟨[], l', by simp, rfl, by rw [g]; exact upd_same _ _ _⟩
      | more _ t d m' pc' g1 g2 g3 g =>
        refine ih l' t d hi' (by rw [g]; exact g1) ?_
        rw [hring]
        rcases h2 with h2 | h2
        · exfalso
          rw [← hring, g] at h2
          simp only [upd_same] at h2
          rw [h2] at g2; exact g2
        · omega
  cases hp : l.pc p with
  | idle => exact ⟨[], l, by simp, rfl, hp⟩
  | claiming t d => exact tr _ l t d hpc hp (Nat.le_refl _)
  | claimed t d x => exact cl l t d x hp (hown t d x (.inl hp))
  | written t d x => exact wr l t d x hp (hown t d x (.inr hp))

/-- Tasks exist only if there is a scheduler. -/
theorem Reach.hasSched {k : Nat} {c : Bool} {kind : ElD.Kind} {s : St D κ} (h : Reach k c kind s) {id : Nat} (hid : s.sch.tasks id ≠ none) : s.el.sched.isSome = true := by
  induction h with
  | init => simp [St.init, Sched.St.init] at hid
  | @step s s' a hr hok hs ih =>
    have keep : s.el.sched.isSome = true → s'.el.sched.isSome = true := by
      intro h0
      have kx : ∀ {x : ElD.Act D Nat}, ElD.step k c s.el x = some s'.el → s'.el.sched.isSome = true := by
        intro x hx
        rcases step_maps hx with ⟨_, g⟩ | ⟨_, g, _⟩ | ⟨_, _, _, n, _, g⟩
        · rw [g]; exact h0
        · rw [g]; exact h0
        · rw [g]; rfl
      rcases (step_cases hs).2 with ⟨e1, _, _⟩ | ⟨i, t, _, _, _, _, h4⟩ | ⟨r, _, _, _, h3⟩ | ⟨x, _, _, _, h3, _⟩
      · rw [e1]; exact h0
      · exact kx h4
      · exact kx h3
      · exact kx h3
    by_cases h0 : s.sch.tasks id = none
    · -- the task is new
      by_cases ha : ∃ b n r, a = .start b n r
      · obtain ⟨b, n, r, rfl⟩ := ha
        unfold ElS.step at hs
        split at hs
        · cases hs
        simp only [lift] at hs
        split at hs
        · rename_i hc
          obtain ⟨_, _, rfl⟩ := Option.map_eq_some_iff.mp hs
          simp only [Bool.and_eq_true] at hc
          exact hc.1
        · cases hs
      · exfalso
        have nn : ∀ b : Sched.Act κ, (∀ n r, b ≠ .start n r) → Sched.step true s.sch b = some s'.sch → s'.sch.tasks id = none := by
          intro b hb h
          unfold Sched.step at h
          split at h
          · cases h
          generalize s'.sch = z at h
          cases b with
          | start n r => exact absurd rfl (hb n r)
          | stop n =>
            simp only at h
            split at h
            · split at h
              · cases h; exact h0
              · split at h <;> cases h
                rename_i i _ _ t ht
                have : id ≠ i := by rintro rfl; rw [h0] at ht; cases ht
                exact (upd_other _ _ this).trans h0
            · cases h
          | joined =>
            simp only at h
            (repeat' split at h) <;> first | (cases h; done) | (cases h; exact h0)
          | loop =>
            simp only at h
            (repeat' split at h) <;> first | (cases h; done) | (cases h; exact h0)
          | throws | stopSelf =>
            simp only [Bool.not_true, Bool.and_false, Bool.false_and, Bool.false_eq_true, if_false] at h
            split at h <;> cases h
          | test i | wake i | finish i =>
            simp only [if_true] at h
            split at h
            · rename_i t ht
              split at h <;> cases h
              have : id ≠ i := by rintro rfl; rw [h0] at ht; cases ht
              exact (upd_other _ _ this).trans h0
            · cases h
        apply hid
        unfold ElS.step at hs
        split at hs
        · cases hs
        cases a with
        | start b n r => exact absurd ⟨b, n, r, rfl⟩ ha
        | stop b n =>
          simp only at hs
          split at hs
          · obtain ⟨_, g, rfl⟩ := Option.map_eq_some_iff.mp hs; exact nn (.stop n) nofun g
          · cases hs
        | joined => obtain ⟨_, g, rfl⟩ := Option.map_eq_some_iff.mp hs; exact nn .joined nofun g
        | test i => obtain ⟨_, g, rfl⟩ := Option.map_eq_some_iff.mp hs; exact nn (.test i) nofun g
        | finish i =>
          simp only [lift] at hs
          split at hs
          · obtain ⟨_, g, rfl⟩ := Option.map_eq_some_iff.mp hs; exact nn (.finish i) nofun g
          · cases hs
        | wake i =>
          simp only at hs
          split at hs
          · cases hs
          split at hs
          · rename_i g _; cases hs; exact nn (.wake i) nofun g
          · cases hs
        | enter =>
          simp only at hs
          split at hs <;> cases hs
          exact h0
        | leave r =>
          simp only at hs
          split at hs
          · obtain ⟨_, g, rfl⟩ := Option.map_eq_some_iff.mp hs; exact h0
          · cases hs
        | el x =>
          simp only at hs
          split at hs
          · obtain ⟨_, g, rfl⟩ := Option.map_eq_some_iff.mp hs; exact h0
          · cases hs
    · exact keep (ih h0)

omit [DecidableEq D] in
theorem run_append {k : Nat} {c : Bool} (as bs : List (Act D κ)) (s : St D κ) : run k c s (as ++ bs) = (run k c s as).bind (fun s' => run k c s' bs) := by
  induction as generalizing s with
  | nil => rfl
  | cons a as ih =>
    simp only [List.cons_append, run]
    split
    · rfl
    · exact ih _

omit [DecidableEq D] in
/-- Steps of a publishing thread in the whole. -/
theorem lift_run {k : Nat} {c : Bool} {id : Nat} {as : List (EvLoop.Act (ElD.Msg D Nat))} (ha : ∀ a ∈ as, EvLoop.PubTurn (thr id) a) {s : St D κ}
    {l' : EvLoop.St (ElD.Msg D Nat)} (ht : s.sch.terminated = false) (h : EvLoop.run k s.el.loop as = some l') :
    ∃ s', run k c s (as.map fun a => .el (.loop a)) = some s' ∧ s'.sch = s.sch ∧ s'.el.loop = l' ∧ s'.el.sched = s.el.sched ∧ s'.byLoop = s.byLoop := by
  induction as generalizing s with
  | nil => cases h; exact ⟨s, rfl, rfl, rfl, rfl, rfl⟩
  | cons a as ih =>
    simp only [EvLoop.run] at h
    split at h
    · cases h
    rename_i l1 h1
    have hst : ElD.step k c s.el (.loop a) = some { s.el with loop := l1 } := by
      rcases ha a List.mem_cons_self with rfl | rfl | rfl <;> simp only [ElD.step, ElD.mayPublish, if_true, h1, Option.map_some]
    have hfree : free (.loop a : ElD.Act D Nat) = true := by
      rcases ha a List.mem_cons_self with rfl | rfl | rfl <;> rfl
    obtain ⟨s', g1, g2, g3, g4, g5⟩ := ih (fun a h => ha a (List.mem_cons_of_mem _ h))
      (s := { s with el := { s.el with loop := l1 }, lost := lostNow s.el.loop l1 (.loop a) ++ s.lost }) ht h
    refine ⟨s', ?_, g2, g3, g4, g5⟩
    simp only [List.map_cons, run, ElS.step, ht, hfree, hst, Bool.false_eq_true, if_false, if_true, Option.map_some]
    exact g1

/-- **C86**: `stopScheduledTask` returns: from every state in which it waits, steps of the thread of that task are enough — neither the loop nor anybody else has
to do anything.  So a task, or a listener, that runs on the loop may stop a task, even the one it is itself. -/
theorem C86_stop_returns {k : Nat} (hk : k ≤ 30) {c : Bool} {kind : ElD.Kind} {s : St D κ} (hr : Reach k c kind s) (htm : s.sch.terminated = false) {n : κ} {id : Nat}
    (hc : s.sch.ctl = .joining n id) :
    ∃ as s', (∀ a ∈ as, OfThread id a) ∧ run k c s (as ++ [.joined]) = some s' ∧ s'.sch.ctl = .idle := by
  obtain ⟨A, ls, _, hi⟩ := ElD.Reach.inv hk (ElD.Reach.mono (fun _ _ h => h.1) hr.el)
  obtain ⟨_, tk, htk, hrun⟩ := hr.sch.inv.join n id hc
  have hsome := hr.hasSched (id := id) (by rw [htk]; nofun)
  have hbusy := (hr.inv hk).busy id
  have hpc := hi.loop.pcInv
  have hown : ∀ t d x, s.el.loop.pc (thr id) = .claimed t d x ∨ s.el.loop.pc (thr id) = .written t d x → s.el.loop.ring.owner x = some (thr id) :=
    fun t d x h => ((hi.loop.lInv hk).pown (thr id) t d x h).1
  -- the last step
  have done : ∀ (s : St D κ) (tk : Sched.Task), s.sch.terminated = false → s.sch.ctl = .joining n id → s.sch.tasks id = some tk → tk.pc = .done →
      ∃ as s', (∀ a ∈ as, OfThread id a) ∧ run k c s (as ++ [.joined]) = some s' ∧ s'.sch.ctl = .idle := by
    intro s tk htm hc htk hp
    have : ∃ r, Sched.step true s.sch .joined = some r ∧ r.ctl = .idle := by simp [Sched.step, htm, hc, htk, hp]
    obtain ⟨r, h1, h2⟩ := this
    exact ⟨[], { s with sch := r }, by simp, by simp [run, ElS.step, htm, lift, h1], h2⟩
  -- the flag is seen
  have test : ∀ (s : St D κ) (tk : Sched.Task), s.sch.terminated = false → s.sch.ctl = .joining n id → s.sch.tasks id = some tk → tk.isRunning = false → tk.pc = .test →
      ∃ as s', (∀ a ∈ as, OfThread id a) ∧ run k c s (as ++ [.joined]) = some s' ∧ s'.sch.ctl = .idle := by
    intro s tk htm hc htk hrun hp
    have : Sched.step true s.sch (.test id) = some { s.sch with tasks := upd s.sch.tasks id (some { tk with pc := .done }) } := by
      simp [Sched.step, htm, htk, hp, hrun]
    obtain ⟨as, s', g1, g2, g3⟩ := done { s with sch := { s.sch with tasks := upd s.sch.tasks id (some { tk with pc := .done }) } } { tk with pc := .done } htm hc
      (by simp) rfl
    have e : ElS.step k c s (.test id) = some { s with sch := { s.sch with tasks := upd s.sch.tasks id (some { tk with pc := .done }) } } := by
      simp only [ElS.step]; rw [if_neg (by simp [htm]), this]; rfl
    exact ⟨.test id :: as, s', by simpa [OfThread] using g1, by simp only [List.cons_append, run, e]; exact g2, g3⟩
  -- back from the task
  have ret : ∀ (s : St D κ) (tk : Sched.Task), s.sch.terminated = false → s.sch.ctl = .joining n id → s.sch.tasks id = some tk → tk.isRunning = false → tk.pc = .inTask →
      s.el.loop.pc (thr id) = .idle → ∃ as s', (∀ a ∈ as, OfThread id a) ∧ run k c s (as ++ [.joined]) = some s' ∧ s'.sch.ctl = .idle := by
    intro s tk htm hc htk hrun hp hid
    have h1 : Sched.step true s.sch (.finish id) = some { s.sch with tasks := upd s.sch.tasks id (some { tk with pc := if tk.isRepeat then .test else .done }) } := by
      simp [Sched.step, htm, htk, hp]
    have h2 : returned s.el.loop (thr id) = true := by simp [returned, hid]
    have h3 : ∃ as s', (∀ a ∈ as, OfThread id a) ∧
        run k c { s with sch := { s.sch with tasks := upd s.sch.tasks id (some { tk with pc := if tk.isRepeat then .test else .done }) } } (as ++ [.joined]) = some s' ∧
        s'.sch.ctl = .idle := by
      by_cases hrep : tk.isRepeat = true
      · rw [if_pos hrep]; exact test _ { tk with pc := .test } htm hc (by simp) hrun rfl
      · rw [if_neg hrep]; exact done _ { tk with pc := .done } htm hc (by simp) rfl
    obtain ⟨as, s', g1, g2, g3⟩ := h3
    have e : ElS.step k c s (.finish id) =
        some { s with sch := { s.sch with tasks := upd s.sch.tasks id (some { tk with pc := if tk.isRepeat then .test else .done }) } } := by
      simp only [ElS.step]; rw [if_neg (by simp [htm]), if_pos h2, h1]; rfl
    exact ⟨.finish id :: as, s', by simpa [OfThread] using g1, by simp only [List.cons_append, run, e]; exact g2, g3⟩
  -- in the task
  have inT : ∀ (s : St D κ) (tk : Sched.Task), s.sch.terminated = false → s.sch.ctl = .joining n id → s.sch.tasks id = some tk → tk.isRunning = false → tk.pc = .inTask →
      EvLoop.PcInv s.el.loop → (∀ t d x, s.el.loop.pc (thr id) = .claimed t d x ∨ s.el.loop.pc (thr id) = .written t d x → s.el.loop.ring.owner x = some (thr id)) →
      ∃ as s', (∀ a ∈ as, OfThread id a) ∧ run k c s (as ++ [.joined]) = some s' ∧ s'.sch.ctl = .idle := by
    intro s tk htm hc htk hrun hp hpc hown
    obtain ⟨as, l', p1, p2, p3⟩ := solo_publish (k := k) hpc hown
    obtain ⟨s1, q1, q2, q3, _⟩ := lift_run (c := c) p1 htm p2
    obtain ⟨bs, s', g1, g2, g3⟩ := ret s1 tk (by rw [q2]; exact htm) (by rw [q2]; exact hc) (by rw [q2]; exact htk) hrun hp (by rw [q3]; exact p3)
    refine ⟨as.map (fun a => .el (.loop a)) ++ bs, s', ?_, ?_, g3⟩
    · intro a ha
      rcases List.mem_append.mp ha with ha | ha
      · obtain ⟨b, hb, rfl⟩ := List.mem_map.mp ha
        rcases p1 b hb with rfl | rfl | rfl <;> rfl
      · exact g1 a ha
    · rw [List.append_assoc, run_append, q1]
      exact g2
  cases hp : tk.pc with
  | done => exact done s tk htm hc htk hp
  | test => exact test s tk htm hc htk hrun hp
  | inTask => exact inT s tk htm hc htk hrun hp hpc hown
  | sleeping =>
    have hidle : s.el.loop.pc (thr id) = .idle := by
      apply Classical.byContradiction
      intro hne
      obtain ⟨tk', k1, k2⟩ := hbusy hne
      rw [htk] at k1; cases k1
      rw [hp] at k2; cases k2
    obtain ⟨t, ht⟩ := Option.isSome_iff_exists.mp hsome
    have hpp : s.el.loop.ring.pp (thr id) = .idle := by have := hpc (thr id); rw [hidle] at this; exact this
    have h1 : Sched.step true s.sch (.wake id) = some { s.sch with tasks := upd s.sch.tasks id (some { tk with pc := .inTask }), queue := s.sch.queue ++ [id] } := by
      simp [Sched.step, htm, htk, hp]
    have h2 : ∃ l, EvLoop.step k s.el.loop (.call (thr id) t (.fn id)) = some l ∧ l.pc (thr id) = .claiming t (.fn id) := by
      simp [EvLoop.step, hidle, MRing.step, hpp]
    obtain ⟨l, h2, h3⟩ := h2
    have h4 : ElD.step k c s.el (.loop (.call (thr id) t (.fn id))) = some { s.el with loop := l } := by
      simp [ElD.step, ElD.mayPublish, ht, h2]
    obtain ⟨as, s', g1, g2, g3⟩ := inT { s with
        sch := { s.sch with tasks := upd s.sch.tasks id (some { tk with pc := .inTask }), queue := s.sch.queue ++ [id] }, el := { s.el with loop := l } }
      { tk with pc := .inTask } htm hc (by simp) hrun rfl (hpc.step (EvLoop.step_eff hpc h2)) (by
        intro t' d x h
        simp only [h3] at h
        rcases h with h | h <;> cases h)
    have e : ElS.step k c s (.wake id) = some { s with
        sch := { s.sch with tasks := upd s.sch.tasks id (some { tk with pc := .inTask }), queue := s.sch.queue ++ [id] }, el := { s.el with loop := l } } := by
      simp only [ElS.step]; rw [if_neg (by simp [htm])]; simp only [ht, h1, h4]
    refine ⟨.wake id :: as, s', by simpa [OfThread] using g1, ?_, g3⟩
    simp only [List.cons_append, run, e]
    exact g2

/-! ### Concrete cases -/

/-- The conditions, checked. -/
def okC (s : St D κ) : Act D κ → Bool
  | .el a => ElD.okC s.el a
  | _ => true

def runOk (k : Nat) (c : Bool) (s : St D κ) : List (Act D κ) → Option (St D κ)
  | [] => some s
  | x :: xs => if okC s x then
      match step k c s x with
      | none => none
      | some s' => runOk k c s' xs
    else none

omit [DecidableEq D] in
theorem Reach.of_runOk {k : Nat} {c : Bool} {kind : ElD.Kind} {s s0 : St D κ} (xs : List (Act D κ)) (h0 : Reach k c kind s0) (h : runOk k c s0 xs = some s) :
    Reach k c kind s := by
  induction xs generalizing s0 with
  | nil => cases h; exact h0
  | cons x xs ih =>
    simp only [runOk] at h
    split at h
    · rename_i hok
      split at h
      · cases h
      · rename_i s1 hs1
        refine ih (h0.step ?_ hs1) h
        cases x with
        | el a => exact ElD.okC_ok hok
        | _ => trivial
    · cases h

/-- The loop of the provider started, before anything else. -/
def started (kind : ElD.Kind) : St D κ := { (St.init kind : St D κ) with el := ElD.started kind }

omit [DecidableEq D] in
theorem reach_started (kind : ElD.Kind) : Reach 1 false kind (started kind : St D κ) := by
  have h1 : Reach 1 false kind (St.init kind : St D κ) := .init
  have h2 := h1.step (a := .el (.loop .start)) ⟨⟨(by intro x; rfl), trivial⟩, fun b _ _ => by rfl⟩ (by rfl)
  exact h2.step (a := .el (.loop .run)) ⟨⟨trivial, trivial⟩, fun b hb e => by subst e; cases hb⟩ (by rfl)

/-- The thread of task `id` finds it due and hands it to the loop, with nobody else publishing; `n` further steps of `try_next`. -/
def fire (n id : Nat) : List (Act D κ) :=
  [.test id, .wake id] ++ List.replicate (3 + n) (.el (.loop (.claim (thr id)))) ++ [.el (.loop (.write (thr id))), .el (.loop (.publish (thr id))), .finish id]

/-- The firing is refused. -/
def refused (id : Nat) : List (Act D κ) := [.test id, .wake id] ++ List.replicate 5 (.el (.loop (.claim (thr id)))) ++ [.finish id]

/-- The loop takes up the next event. -/
def takeUp : List (Act D κ) := [.el (.loop .look), .el (.loop .scan), .el (.loop .scan), .el (.loop .advance)]

/-- The loop takes up the next event and `j` listeners return. -/
def deliver (j : Nat) : List (Act D κ) :=
  takeUp ++ (List.replicate j [.enter, .leave true]).flatten ++ [.el (.loop .finish), .el (.loop .advance)]

/-- The loop takes up two events at once, with one listener each. -/
def deliverTwo : List (Act D κ) := [.el (.loop .look), .el (.loop .scan), .el (.loop .scan), .el (.loop .scan), .el (.loop .advance), .enter, .leave true,
  .el (.loop .finish), .el (.loop .advance), .enter, .leave true, .el (.loop .finish), .el (.loop .advance)]

/-- Two tasks and a topic of a user. -/
def exSetup : List (Act Nat String) := [.el (.getScheduler ""), .el (.getSubscriber "a" .safe), .el (.getPublisher "a"), .el (.reg 1 "l"),
  .start false "x" true, .start false "y" true]

/-- Task 0 and an event of a user fill the ring of two slots, task 1 is refused; they are delivered; task 1 fires again, and stops itself
when the loop runs it: its thread ends while the loop waits for it. -/
def exActs : List (Act Nat String) := exSetup ++ fire 0 0 ++ (ElD.pub 0 2 "a" (.ev 10)).map .el ++ refused 1 ++ deliverTwo ++ fire 3 1 ++
  takeUp ++ [.enter, .stop true "y", .test 1, .joined, .leave true, .el (.loop .finish), .el (.loop .advance)] ++ fire 0 0 ++ deliver 1

set_option synthInstance.maxSize 4000 in
/-- The hypotheses are met by that execution: four firings, one of them refused and counted, the others called in the order of acceptance. -/
theorem C86_example : ∃ s : St Nat String, Reach 1 false .safe s ∧ firings s = [0, 1, 1, 0] ∧ accepted s = [0, 1, 0] ∧ called s.el.hist = [0, 1, 0] ∧ s.lost = [1] ∧
    s.el.loop.discarded "EVENTLOOP_SCHEDULER" = 1 ∧ s.el.del = none ∧ (ElD.starts s.el.hist).length = (EvLoop.acceptedInOrder s.el.loop).length ∧
    s.el.sched = some "EVENTLOOP_SCHEDULER" := by
  have hx : (runOk 1 false (started .safe : St Nat String) exActs).map (fun s => (firings s, accepted s, called s.el.hist, s.lost,
      s.el.loop.discarded "EVENTLOOP_SCHEDULER", s.el.del.isNone, (ElD.starts s.el.hist).length, (EvLoop.acceptedInOrder s.el.loop).length, s.el.sched)) =
      some ([0, 1, 1, 0], [0, 1, 0], [0, 1, 0], [1], 1, true, 4, 4, some "EVENTLOOP_SCHEDULER") := by decide +kernel
  obtain ⟨s, hs, he⟩ := Option.map_eq_some_iff.mp hx
  simp only [Prod.mk.injEq] at he
  obtain ⟨e1, e2, e3, e4, e5, e6, e7, e8, e9⟩ := he
  exact ⟨s, .of_runOk _ (reach_started .safe) hs, e1, e2, e3, e4, e5, by simpa using e6, by rw [e7, e8], e9⟩

/-- `stopScheduledTask` called by the task itself on the thread of the loop, with the task's thread about to fire again: the hypotheses of `C86_stop_returns`. -/
theorem C86_example_stops_itself : ∃ s : St Nat String, Reach 1 false .safe s ∧ s.sch.terminated = false ∧ s.sch.ctl = .joining "x" 0 ∧ s.byLoop = true ∧ s.inCall = true ∧
    s.sch.tasks 0 = some ⟨true, false, .sleeping⟩ := by
  have hx : (runOk 1 false (started .safe : St Nat String) (exSetup ++ fire 0 0 ++ [.test 0] ++ takeUp ++ [.enter, .stop true "x"])).map
      (fun s => (s.sch.terminated, s.sch.ctl, s.byLoop, s.inCall, s.sch.tasks 0)) = some (false, .joining "x" 0, true, true, some ⟨true, false, .sleeping⟩) := by decide +kernel
  obtain ⟨s, hs, he⟩ := Option.map_eq_some_iff.mp hx
  simp only [Prod.mk.injEq] at he
  obtain ⟨e1, e2, e3, e4, e5⟩ := he
  exact ⟨s, .of_runOk _ (reach_started .safe) hs, e1, e2, e3, e4, e5⟩

/-- Finding against **C86**: a task is called after `stopScheduledTask` has returned: its firing was still in the ring. -/
theorem C86_violation_called_after_stop : ∃ s1 s2 : St Nat String, Reach 1 false .safe s1 ∧ s1.sch.ctl = .idle ∧ s1.sch.map "x" = none ∧ called s1.el.hist = [] ∧
    run 1 false s1 (deliver 1) = some s2 ∧ called s2.el.hist = [0] := by
  have hx : (runOk 1 false (started .safe : St Nat String) (exSetup ++ fire 0 0 ++ [.stop false "x", .test 0, .joined])).map
      (fun s => (s.sch.ctl, s.sch.map "x", called s.el.hist, (run 1 false s (deliver 1)).map fun s2 => called s2.el.hist)) =
      some (.idle, none, [], some [0]) := by decide +kernel
  obtain ⟨s, hs, he⟩ := Option.map_eq_some_iff.mp hx
  simp only [Prod.mk.injEq] at he
  obtain ⟨e1, e2, e3, e4⟩ := he
  obtain ⟨s2, h2, e5⟩ := Option.map_eq_some_iff.mp e4
  exact ⟨s, s2, .of_runOk _ (reach_started .safe) hs, e1, e2, e3, h2, e5⟩

/-- Finding against **C86**: firings pile up: nothing keeps a task from firing again before it has been called.  Before the loop takes up
anything a task with a short period fills the ring of two slots; then its own next firing is refused, and so is the event of a user of another topic. -/
theorem C86_violation_pile_up : ∃ s : St Nat String, Reach 1 false .safe s ∧ firings s = [0, 0, 0] ∧ accepted s = [0, 0] ∧ s.lost = [0] ∧ called s.el.hist = [] ∧
    s.el.loop.discarded "a" = 1 := by
  have hx : (runOk 1 false (started .safe : St Nat String) (exSetup ++ fire 0 0 ++ fire 0 0 ++ refused 0 ++
      .el (.loop (.call 2 "a" (.ev 10))) :: List.replicate 5 (.el (.loop (.claim 2))))).map
      (fun s => (firings s, accepted s, s.lost, called s.el.hist, s.el.loop.discarded "a")) = some ([0, 0, 0], [0, 0], [0], [], 1) := by decide +kernel
  obtain ⟨s, hs, he⟩ := Option.map_eq_some_iff.mp hx
  simp only [Prod.mk.injEq] at he
  obtain ⟨e1, e2, e3, e4, e5⟩ := he
  exact ⟨s, .of_runOk _ (reach_started .safe) hs, e1, e2, e3, e4, e5⟩

end Verif.ElS
