import Verif.Lemmas.HandlerEnd
import Mathlib.Data.List.Nodup

/-!
Destroying a callback handler while replies arrive (C92).  `Reach multi P`: every interleaving of the destructor with any number of delivering threads in
which every step satisfies `P`; `fun _ _ => True`: all of them.  `multi`: the handler with a mutex.
-/

namespace Verif.HandlerEnd
open Verif

/-- **C92**, the part that always holds: a delivery that begins after the listener was removed never runs the handler, in any interleaving. -/
theorem C92_no_call_after_removal {multi : Bool} {P : St → Act → Prop} {s : St} (h : Reach multi P s) {e : Nat}
    (hb : Before s.hist .removed (.start e)) : Ev.enter e ∉ s.hist :=
  fun he => (h.inv.entered e he).2 hb

/-- **C92**: every delivery runs the handler at most once, and only after it has begun. -/
theorem C92_at_most_once {multi : Bool} {P : St → Act → Prop} {s : St} (h : Reach multi P s) (e : Nat) :
    s.hist.count (.enter e) ≤ 1 ∧ (Ev.enter e ∈ s.hist → Ev.start e ∈ s.hist) := by
  refine ⟨?_, fun he => (h.inv.entered e he).1⟩
  have hn := h.inv.nodup
  have := List.nodup_iff_count_le_one.mp hn (.enter e)
  rwa [List.count_filter (by rfl)] at this

/-- **C92**, handler with a mutex: as long as its destruction has not begun, at most one thread runs it. -/
theorem C92_serial_while_alive {P : St → Act → Prop} {s : St} (h : Reach true P s) (ha : s.phase = .alive) {t u e e' : Nat} {l l' : Bool}
    (ht : s.pc t = .inside e l) (hu : s.pc u = .inside e' l') : t = u := by
  have hi := h.inv
  have hl : l = true := by cases l with | true => rfl | false => exact absurd ht (hi.plain rfl ha t e)
  have hl' : l' = true := by cases l' with | true => rfl | false => exact absurd hu (hi.plain rfl ha u e')
  subst hl; subst hl'
  have h1 := (hi.lockOwn ha t).mpr ⟨e, ht⟩
  have h2 := (hi.lockOwn ha u).mpr ⟨e', hu⟩
  rw [h1] at h2
  exact Option.some.inj h2

/-- **C92**, both handlers: if the destruction begins when no thread holds the handler, and (handler with a mutex) no delivery begins before the listener is
removed, then nothing undefined happens, deliveries go on, and no thread runs the handler after its removal.  Missing: destruction at any other moment, where
it fails (`C92_needs_quiet`, `C92_violation_*`). -/
theorem C92_quiet_destruction_partial {multi : Bool} {s : St} (h : Reach multi Quiet s) :
    s.bad = false ∧ (∀ e, ¬ Before s.hist .removed (.enter e)) ∧ (∀ e, ¬ Before s.hist .freed (.leave e)) := by
  have hq := h.qinv
  refine ⟨hq.fine, ?_, ?_⟩
  · rintro e ⟨h1, h2, he, hm⟩
    obtain ⟨h3, h4, rfl⟩ := List.append_of_mem hm
    exact (hq.after (h1 ++ .enter e :: h3) h4 (by rw [he]; simp) e).1 (by simp)
  · rintro e ⟨h1, h2, he, hm⟩
    -- `freed` comes after `removed`
    have hfr : ∀ {s : St}, Reach multi Quiet s → (∀ a b, s.hist = a ++ .freed :: b → Ev.removed ∈ b) ∧ (s.phase = .unregistered → Ev.removed ∈ s.hist) := by
      intro s hr
      induction hr with
      | init => simp [St.init]
      | @step s s' a hr hP hs ih =>
        have push : ∀ v : Ev, v ≠ .freed → ∀ a b, v :: s.hist = a ++ .freed :: b → Ev.removed ∈ b := by
          intro v hv a b he
          cases a with
          | nil => simp only [List.nil_append, List.cons.injEq] at he; exact absurd he.1 hv
          | cons x a =>
            simp only [List.cons_append, List.cons.injEq] at he
            exact ih.1 a b he.2
        cases a with
        | destroy =>
          simp only [step] at hs
          split at hs
          · split at hs <;> cases hs
            · exact ⟨ih.1, by simp⟩
            · exact ⟨push _ (by simp), by simp⟩
          · cases hs; exact ⟨push _ (by simp), by simp⟩
          · next hp =>
            cases hs
            refine ⟨?_, by simp⟩
            intro a b he
            cases a with
            | nil => simp only [List.nil_append, List.cons.injEq] at he; rw [← he.2]; exact ih.2 hp
            | cons x a =>
              simp only [List.cons_append, List.cons.injEq] at he
              exact ih.1 a b he.2
          · cases hs
        | emit t =>
          simp only [step] at hs
          split at hs <;> cases hs
          exact ⟨push _ (by simp), fun hp => List.mem_cons_of_mem _ (ih.2 hp)⟩
        | enter t =>
          simp only [step] at hs
          (repeat' split at hs) <;> cases hs
          · exact ⟨push _ (by simp), fun hp => List.mem_cons_of_mem _ (ih.2 hp)⟩
          · exact ih
          · exact ⟨push _ (by simp), fun hp => List.mem_cons_of_mem _ (ih.2 hp)⟩
        | lock t =>
          simp only [step] at hs
          (repeat' split at hs) <;> cases hs
          · exact ⟨push _ (by simp), fun hp => List.mem_cons_of_mem _ (ih.2 hp)⟩
          · exact ih
        | leave t =>
          simp only [step] at hs
          split at hs <;> cases hs
          exact ⟨push _ (by simp), fun hp => List.mem_cons_of_mem _ (ih.2 hp)⟩
    obtain ⟨h3, h4, rfl⟩ := List.append_of_mem hm
    have hmem := (hfr h).1 (h1 ++ .leave e :: h3) h4 (by rw [he]; simp)
    obtain ⟨h5, h6, rfl⟩ := List.append_of_mem hmem
    exact (hq.after (h1 ++ .leave e :: (h3 ++ .freed :: h5)) h6 (by rw [he]; simp) e).2 (by simp)

/-- **C92**: the destructor waits for nothing: whatever the threads do, its next step is possible until it has finished. -/
theorem C92_destructor_does_not_wait (multi : Bool) (s : St) (h : s.phase ≠ .gone) : ∃ s', step multi s .destroy = some s' := by
  simp only [step]
  cases hp : s.phase with
  | alive => cases multi <;> simp
  | noMutex => simp
  | unregistered => simp
  | gone => exact absurd hp h

/-- Finding against **C92**, in general: the condition on the moment is needed.  Whatever happened so far, if a thread holds the handler when the destruction
begins, there is a continuation in which the handler is used after its end or its mutex destroyed while it is locked. -/
theorem C92_needs_quiet {multi : Bool} {P : St → Act → Prop} {s : St} (h : Reach multi P s) (ha : s.phase = .alive) {t : Nat} (ht : s.pc t ≠ .idle) :
    ∃ as s', run multi s as = some s' ∧ s'.bad = true ∧ as.head? = some .destroy := by
  have hi := h.inv
  cases multi with
  | true =>
    cases hp : s.pc t with
    | idle => exact absurd hp ht
    | pending e =>
      refine ⟨[.destroy, .destroy, .destroy, .enter t], ?_⟩
      simp only [run, step, ha, hp, if_true]
      exact ⟨_, rfl, rfl, rfl⟩
    | wait e =>
      refine ⟨[.destroy, .lock t], ?_⟩
      simp only [run, step, ha, hp, if_true, reduceCtorEq, if_false]
      exact ⟨_, rfl, rfl, rfl⟩
    | inside e l =>
      have hl : l = true := by cases l with | true => rfl | false => exact absurd hp (hi.plain rfl ha t e)
      subst hl
      have ho := (hi.lockOwn ha t).mpr ⟨e, hp⟩
      refine ⟨[.destroy], ?_⟩
      simp only [run, step, ha, if_true, ho]
      exact ⟨_, rfl, by simp, rfl⟩
  | false =>
    cases hp : s.pc t with
    | idle => exact absurd hp ht
    | pending e =>
      refine ⟨[.destroy, .destroy, .enter t], ?_⟩
      simp only [run, step, ha, hp, if_true, Bool.false_eq_true, if_false]
      exact ⟨_, rfl, rfl, rfl⟩
    | wait e =>
      refine ⟨[.destroy, .lock t], ?_⟩
      simp only [run, step, ha, hp, Bool.false_eq_true, if_false, reduceCtorEq]
      exact ⟨_, rfl, rfl, rfl⟩
    | inside e l =>
      refine ⟨[.destroy, .destroy, .leave t], ?_⟩
      simp only [run, step, ha, hp, Bool.false_eq_true, if_false]
      exact ⟨_, rfl, by simp, rfl⟩

/-- The same for a delivery that begins while the handler with a mutex is being destroyed, its listener still registered. -/
theorem C92_needs_no_delivery {multi : Bool} {s : St} (hp : s.phase = .noMutex) {t : Nat} (ht : s.pc t = .idle) :
    ∃ s', run multi s [.emit t, .destroy, .destroy, .enter t] = some s' ∧ s'.bad = true := by
  simp only [run, step, hp, ht, Phase.registered, if_true, upd_same]
  exact ⟨_, rfl, rfl⟩

/-- Finding against **C92**, single threaded handler: a thread has collected the listeners, the handler is destroyed, the thread calls it. -/
theorem C92_violation_used_after_end :
    (run false St.init [.emit 0, .destroy, .destroy, .enter 0]).map (fun s => (s.bad, s.hist.reverse)) =
      some (true, [.start 0, .removed, .freed, .enter 0]) := by decide +kernel

/-- Finding against **C92**: a callback destroys the handler that calls it (thread 0 runs the destructor from inside its own delivery): `erase` runs on a
destroyed vector. -/
theorem C92_violation_destroyed_by_callback :
    (run false St.init [.emit 0, .enter 0, .destroy, .destroy, .leave 0]).map (fun s => (s.bad, s.hist.reverse)) =
      some (true, [.start 0, .enter 0, .removed, .freed, .leave 0]) := by decide +kernel

/-- Finding against **C92**, handler with a mutex: the mutex is destroyed while a thread that delivers a reply holds it; the mutex does not protect the
destruction, since it goes first. -/
theorem C92_violation_mutex_destroyed :
    (run true St.init [.emit 0, .enter 0, .lock 0, .destroy]).map (fun s => (s.bad, decide (s.phase = .noMutex))) = some (true, true) := by decide +kernel

/-- Finding against **C92**, handler with a mutex: between the end of the mutex and the removal of the listener two threads run the handler at the same time. -/
theorem C92_violation_not_serial :
    (run true St.init [.destroy, .emit 0, .emit 1, .enter 0, .enter 1]).map (fun s => (s.bad, s.pc 0, s.pc 1)) =
      some (false, .inside 0 false, .inside 1 false) := by decide +kernel

/-- The hypotheses are met: two deliveries run the handler in turn, then it is destroyed, a third delivery does not find it. -/
theorem C92_example : ∃ s, Reach true Quiet s ∧ s.hist.reverse = [.start 0, .start 1, .enter 1, .leave 1, .enter 0, .leave 0, .removed, .start 2, .freed] ∧
    s.bad = false ∧ s.phase = .gone ∧ Before s.hist .removed (.start 2) := by
  have hpol : ∀ (as : List Act) (s s' : St), Reach true Quiet s → run true s as = some s' →
      (∀ a ∈ as, (match a with | .destroy => False | .emit _ => False | _ => True)) → Reach true Quiet s' := by
    intro as
    induction as with
    | nil => intro s s' h hr _; simp only [run, Option.some.injEq] at hr; exact hr ▸ h
    | cons a as ih =>
      intro s s' h hr hp
      simp only [run] at hr
      split at hr
      · cases hr
      · next s1 hs =>
        refine ih s1 s' (.step h ?_ hs) hr (fun b hb => hp b (List.mem_cons_of_mem _ hb))
        have := hp a (List.mem_cons_self ..)
        cases a <;> first | exact absurd this (fun h => h) | trivial
  have h1 : Reach true Quiet { St.init with next := 1, hist := [.start 0], pc := upd (fun _ => .idle) 0 (.pending 0) } :=
    .step .init (a := .emit 0) (by simp [Quiet, St.init]) rfl
  have h2 := Reach.step h1 (a := .emit 1) (by simp [Quiet, St.init]) rfl
  have h3 : ∃ s, Reach true Quiet s ∧ s.phase = .alive ∧ (∀ t, s.pc t = .idle) ∧ s.hist.reverse = [.start 0, .start 1, .enter 1, .leave 1, .enter 0, .leave 0] ∧
      s.next = 2 := by
    refine ⟨_, hpol [.enter 0, .enter 1, .lock 1, .leave 1, .lock 0, .leave 0] _ _ h2 rfl (by simp), rfl, ?_, rfl, rfl⟩
    intro t
    by_cases h0 : t = 0
    · subst h0; rfl
    · by_cases h1 : t = 1
      · subst h1; rfl
      · simp [St.init, Phase.registered, upd_apply, h0, h1]
  obtain ⟨s, hr, ha, hid, hh, hn⟩ := h3
  have e1 : step true s .destroy = some { s with phase := .noMutex, bad := s.bad || s.owner.isSome } := by simp [step, ha]
  have r1 := Reach.step hr (a := .destroy) (fun _ => hid) e1
  have r2 := Reach.step r1 (a := .destroy) (fun h => by cases h) rfl
  have r3 := Reach.step r2 (a := .emit 5) (by simp [Quiet]) (s' := { s with
    phase := .unregistered, bad := s.bad || s.owner.isSome, hist := .start 2 :: .removed :: s.hist, next := 3 }) (by simp [step, hid, hn, Phase.registered])
  have r4 := Reach.step r3 (a := .destroy) (fun h => by cases h) rfl
  exact ⟨_, r4, by simp [hh], (C92_quiet_destruction_partial r4).1, rfl, ⟨[.freed], .removed :: s.hist, rfl, List.mem_cons_self ..⟩⟩

end Verif.HandlerEnd
