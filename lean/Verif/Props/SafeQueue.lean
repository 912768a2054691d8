import Mathlib.Tactic.Tauto
import Mathlib.Data.List.Perm.Basic
import Verif.Lemmas.SafeQueue

/-!
Properties of `SafeQueue` (C07–C12).  `run (St.init m) as = some (s, log)` ranges over all executions: any number
of threads, any calls, any interleaving, any choice of woken threads, any spurious wake-ups and timeouts.
-/

namespace Verif.SQ

variable {α : Type}

/-- **C07**: in every execution the items put in, in order, are exactly the items taken out, in order, followed by the
items still queued. -/
theorem C07_fifo {m : Nat} {as : List (Act α)} {s log} (h : run (St.init m) as = some (s, log)) :
    putIn log = takenOut log ++ s.q := by
  have := run_flow h
  simpa [St.init, putIn, takenOut] using this

/-- **C07**: a `force_move_push` of `x` with bound `m > 0` removes the oldest items only, as few as needed, reports
their number, and leaves `x` as the newest. -/
theorem C07_force_push {s s' : St α} {t x p ev} (hm : 0 < s.max)
    (h : step s (.call t (.forcePush x) p) = .ok s' ev) :
    s'.q = s.q.drop (s.q.length + 1 - s.max) ++ [x] ∧
    ev = (s.q.take (s.q.length + 1 - s.max)).map .discarded ++ [.forced t x (s.q.length + 1 - s.max)] := by
  simp only [step] at h
  split at h
  · cases h
  · simp only [bodyForcePush] at h
    cases h
    have h1 := dropOld_append s.max s.q
    have h2 := dropOld_len s.max hm s.q
    have h3 : (dropOld s.max s.q).1.length = s.q.length + 1 - s.max := by
      have := congrArg List.length h1
      rw [List.length_append] at this; omega
    have h4 : s.q.take (s.q.length + 1 - s.max) = (dropOld s.max s.q).1 := by
      rw [← h3]
      have := List.take_left (l₁ := (dropOld s.max s.q).1) (l₂ := (dropOld s.max s.q).2)
      rwa [h1] at this
    have h5 : s.q.drop (s.q.length + 1 - s.max) = (dropOld s.max s.q).2 := by
      rw [← h3]
      have := List.drop_left (l₁ := (dropOld s.max s.q).1) (l₂ := (dropOld s.max s.q).2)
      rwa [h1] at this
    simp [h4, h5, h3]

/-- Non-triviality of C07: two producers, a discard, a consumer that had to wait. -/
example : run (St.init 1) [.call 0 .pop 0, .call 1 (.push 'a') 0, .call 2 (.forcePush 'b') 0, .resumeNE 0 false 0,
      .call 3 (.forcePush 'c') 0] =
    some (⟨['c'], 1, [], [], [], []⟩,
      [.pushed 1 'a', .discarded 'a', .forced 2 'b' 1, .popped 0 'b', .forced 3 'c' 0]) := by
  decide

/-- **C08**: however the bound is changed between positive values of at most `M`, the queue never holds more than `M`
items; with a fixed bound `m`, never more than `m`. -/
theorem C08_bound {m M : Nat} {as : List (Act α)} {s log} (hm : 0 < m) (hM : m ≤ M)
    (hs : ∀ b, Act.setMax b ∈ as → 0 < b ∧ b ≤ M)
    (h : run (St.init m) as = some (s, log)) : s.q.length ≤ M := by
  have := run_inv (P := fun s : St α => 0 < s.max ∧ s.max ≤ M ∧ s.q.length ≤ M)
    (Q := fun a => ∀ b, a = Act.setMax b → 0 < b ∧ b ≤ M)
    (fun s a s' ev hP hQ hst => by
      have h1 := step_len hP.1 hst
      have h2 := step_max hst
      cases a <;> simp only [] at h2 <;> (try simp at hQ) <;> refine ⟨by omega, by omega, by omega⟩)
    ⟨by simpa [St.init] using hm, by simpa [St.init] using hM, by simp [St.init]⟩
    (fun a ha b hb => hs b (hb ▸ ha)) h
  exact this.2.2

theorem C08_full_empty {m : Nat} {as : List (Act α)} {s log} (hm : 0 < m)
    (hs : ∀ b, Act.setMax b ∉ as) (h : run (St.init m) as = some (s, log)) :
    (s.full = true ↔ s.size = m) ∧ (s.empty = true ↔ s.size = 0) ∧ s.size ≤ m := by
  have h1 := C08_bound hm (Nat.le_refl m) (fun b hb => absurd hb (hs b)) h
  have h2 : s.max = m := run_inv (P := fun s : St α => s.max = m) (Q := fun a => ∀ b, a ≠ Act.setMax b)
    (fun s a s' ev hP hQ hst => by
      have h2 := step_max hst
      cases a <;> simp only [] at h2 <;> (try simp at hQ) <;> omega)
    (by simp [St.init]) (fun a ha b hb => hs b (hb ▸ ha)) h
  refine ⟨?_, by simp [St.empty, St.size], h1⟩
  simp only [St.full, St.size, h2, decide_eq_true_eq]
  omega

/-- Lowering the bound below the current size is possible: the queue may hold more than the new bound until items
are taken out (why C08 speaks about all bounds in force so far). -/
theorem C08_lowered_bound_exceeded :
    ∃ s log, run (St.init 2) [.call 0 (.push 1) 0, .call 0 (.push 2) 0, .setMax 1] = some (s, log) ∧
      s.max = 1 ∧ s.q.length = 2 := ⟨_, _, rfl, rfl, rfl⟩

/-- **C09**: `try_push` fails exactly when the bound is positive and reached, and then changes nothing; otherwise the item
is appended. -/
theorem C09_try_push {s s' : St α} {t x p ev} (h : step s (.call t (.tryPush x) p) = .ok s' ev) :
    (ev = [.tryPushed t x false] ↔ s.full = true) ∧
    (s.full = true → s' = s) ∧
    (s.full = false → ev = [.tryPushed t x true] ∧ s'.q = s.q ++ [x] ∧ s'.max = s.max) := by
  simp only [step] at h
  split at h
  · cases h
  · simp only [bodyTryPush] at h
    split at h <;> (rename_i hc; cases h; simp [St.full, hc])

/-- **C09**: `try_pop` fails exactly when the queue is empty, and then changes nothing; otherwise it returns the oldest
item and removes it. -/
theorem C09_try_pop {s s' : St α} {t p ev} (h : step s (.call t .tryPop p) = .ok s' ev) :
    (ev = [.popFailed t] ↔ s.empty = true) ∧
    (s.empty = true → s' = s) ∧
    (∀ x q, s.q = x :: q → ev = [.popped t x] ∧ s'.q = q ∧ s'.max = s.max) := by
  simp only [step] at h
  split at h
  · cases h
  · simp only [bodyTryPop, takeFront] at h
    split at h
    · rename_i hc; cases h; simp [St.empty, hc]
    · split at h
      · cases h
      · rename_i hq; cases h; simp [St.empty, hq]

/-- **C09**: the non-blocking operations always return at once (they never wait and never have undefined behaviour). -/
theorem C09_nonblocking_total (s : St α) (t : Nat) (p : Nat) (hb : ¬ busy s t) (x : α) :
    (∃ s' ok, step s (.call t (.tryPush x) p) = .ok s' [.tryPushed t x ok]) ∧
    (∃ s' ev, step s (.call t .tryPop p) = .ok s' ev ∧ (ev = [.popFailed t] ∨ ∃ y, ev = [.popped t y])) := by
  constructor
  · simp only [step, hb, if_false, bodyTryPush]; split <;> simp
  · simp only [step, hb, if_false, bodyTryPop, takeFront]
    split
    · exact ⟨_, _, rfl, Or.inl rfl⟩
    · split
      · simp_all
      · exact ⟨_, _, rfl, Or.inr ⟨_, rfl⟩⟩

example : step (St.init 1) (.call 0 (.tryPush 7) 0) = .ok ⟨[7], 1, [], [], [], []⟩ [.tryPushed 0 7 true] := by rfl

/-- **C09/C11, start of a timed pop**: `timeout_pop` on a non-empty queue returns the oldest item at once; on an empty queue
with timeout 0 it fails at once and changes nothing; on an empty queue with a positive timeout it waits and changes
neither content nor bound. -/
theorem C09_timed_pop_start {s s' : St α} {t n p ev} (h : step s (.call t (.timedPop n) p) = .ok s' ev) :
    (∀ x q, s.q = x :: q → ev = [.popped t x] ∧ s'.q = q ∧ s'.max = s.max) ∧
    (s.empty = true → n = 0 → ev = [.popFailed t] ∧ s' = s) ∧
    (s.empty = true → 0 < n → ev = [] ∧ s' = { s with wne := s.wne ++ [⟨t, true⟩] }) := by
  simp only [step] at h
  split at h
  · cases h
  · simp only [bodyTimedPop, takeFront] at h
    split at h
    · rename_i hc
      split at h
      · cases h; simp_all [St.empty]
      · cases h
        refine ⟨by simp [hc], fun _ h0 => absurd h0 (by assumption), fun _ _ => ⟨rfl, rfl⟩⟩
    · split at h
      · cases h
      · rename_i hq; cases h; simp [St.empty, hq]

example : step (St.init (α := Nat) 1) (.call 0 (.timedPop 0) 0) = .ok (St.init 1) [.popFailed 0] ∧
    step (St.init (α := Nat) 1) (.call 0 (.timedPop 3) 0) = .ok ⟨[], 1, [⟨0, true⟩], [], [], []⟩ [] := ⟨rfl, rfl⟩

/-- The thread to which an event is the end of its call. -/
def caller : Ev α → Option Nat
  | .pushed t _ | .tryPushed t _ _ | .forced t _ _ | .popped t _ | .popFailed t => some t
  | .discarded _ => none

theorem mem_erase_map {β γ : Type} {l : List β} {i : Nat} {c : β} (f : β → γ) (h : l[i]? = some c) (x : γ) :
    x ∈ l.map f ↔ x = f c ∨ x ∈ (l.eraseIdx i).map f := by
  obtain ⟨hi, rfl⟩ := List.getElem?_eq_some_iff.mp h
  have := ((List.getElem_cons_eraseIdx_perm hi).map f).mem_iff (a := x)
  rw [← this]; simp

theorem busy_notifyNE (s : St α) (p t : Nat) : busy (notifyNE s p) t ↔ busy s t := by
  unfold notifyNE
  split
  · rfl
  · next c hc =>
    have := mem_erase_map Cons.t hc t
    simp only [busy, List.map_append, List.mem_append, List.map_cons, List.map_nil, List.mem_singleton]
    rw [this]
    constructor
    · rintro (h | (h | h) | h | h)
      · exact Or.inl (Or.inr h)
      · exact Or.inr (Or.inl h)
      · exact Or.inl (Or.inl h)
      · exact Or.inr (Or.inr (Or.inl h))
      · exact Or.inr (Or.inr (Or.inr h))
    · rintro ((h | h) | h | h | h)
      · exact Or.inr (Or.inl (Or.inr h))
      · exact Or.inl h
      · exact Or.inr (Or.inl (Or.inl h))
      · exact Or.inr (Or.inr (Or.inl h))
      · exact Or.inr (Or.inr (Or.inr h))

theorem busy_notifyNF (s : St α) (p t : Nat) : busy (notifyNF s p) t ↔ busy s t := by
  unfold notifyNF
  split
  · rfl
  · next c hc =>
    have := mem_erase_map Prod.fst hc t
    simp only [busy, List.map_append, List.mem_append, List.map_cons, List.map_nil, List.mem_singleton]
    rw [this]
    constructor
    · rintro (h | h | h | h | h)
      · exact Or.inl h
      · exact Or.inr (Or.inl h)
      · exact Or.inr (Or.inr (Or.inl (Or.inr h)))
      · exact Or.inr (Or.inr (Or.inr h))
      · exact Or.inr (Or.inr (Or.inl (Or.inl h)))
    · rintro (h | h | (h | h) | h)
      · exact Or.inl h
      · exact Or.inr (Or.inl h)
      · exact Or.inr (Or.inr (Or.inr (Or.inr h)))
      · exact Or.inr (Or.inr (Or.inl h))
      · exact Or.inr (Or.inr (Or.inr (Or.inl h)))

/-- What a method body does with the threads in the queue: they all stay; the caller is in the queue afterwards or its call is over. -/
def Keeps (s : St α) (t : Nat) : Out α → Prop
  | .ok s' ev => (∀ u, busy s u → busy s' u) ∧ (busy s' t ∨ some t ∈ ev.map caller)
  | _ => True

theorem keeps_push (s : St α) (t : Nat) (x : α) (p : Nat) : Keeps s t (bodyPush s t x p) := by
  unfold bodyPush
  split
  · exact ⟨fun u hu => (busy_notifyNE _ _ _).mpr hu, Or.inr (by simp [caller])⟩
  · exact ⟨fun u hu => by simp only [busy, List.map_append, List.mem_append] at hu ⊢; tauto, Or.inl (by simp [busy])⟩

theorem keeps_take (s : St α) (t p : Nat) : Keeps s t (takeFront s t p) := by
  unfold takeFront
  split
  · trivial
  · exact ⟨fun u hu => (busy_notifyNF _ _ _).mpr hu, Or.inr (by simp [caller])⟩

theorem keeps_pop (s : St α) (t p : Nat) : Keeps s t (bodyPop s t p) := by
  unfold bodyPop
  split
  · exact ⟨fun u hu => by simp only [busy, List.map_append, List.mem_append] at hu ⊢; tauto, Or.inl (by simp [busy])⟩
  · exact keeps_take s t p

/-- **C10, nobody gets lost**: in every state, whatever happens, a thread that is inside a call of the queue stays inside until that call ends with a
result for it; a new call either ends with a result for its caller or the caller is inside afterwards. -/
theorem C10_call_waits_or_ends {s s' : St α} {a : Act α} {ev} (h : step s a = .ok s' ev) :
    (∀ u, busy s u → busy s' u ∨ some u ∈ ev.map caller) ∧ (∀ t op p, a = .call t op p → busy s' t ∨ some t ∈ ev.map caller) := by
  have fin : ∀ {s1 : St α} {t : Nat} {o : Out α}, Keeps s1 t o → o = .ok s' ev → (∀ u, busy s u → u = t ∨ busy s1 u) →
      (∀ u, busy s u → busy s' u ∨ some u ∈ ev.map caller) ∧ (busy s' t ∨ some t ∈ ev.map caller) := by
    intro s1 t o hk ho hb
    rw [ho] at hk
    refine ⟨fun u hu => ?_, hk.2⟩
    rcases hb u hu with rfl | hu
    · exact hk.2
    · exact Or.inl (hk.1 u hu)
  cases a with
  | call t op p =>
    simp only [step] at h
    split at h
    · cases h
    · have main : Keeps s t (.ok s' ev) := by
        cases op with
        | push x => rw [← h]; exact keeps_push s t x p
        | pop => rw [← h]; exact keeps_pop s t p
        | tryPush x =>
          simp only at h
          rw [← h]
          unfold bodyTryPush
          split
          · exact ⟨fun u hu => hu, Or.inr (by simp [caller])⟩
          · exact ⟨fun u hu => (busy_notifyNE _ _ _).mpr hu, Or.inr (by simp [caller])⟩
        | forcePush x =>
          simp only at h
          rw [← h]
          unfold bodyForcePush
          exact ⟨fun u hu => (busy_notifyNE _ _ _).mpr hu, Or.inr (by simp [caller])⟩
        | tryPop =>
          simp only at h
          rw [← h]
          unfold bodyTryPop
          split
          · exact ⟨fun u hu => hu, Or.inr (by simp [caller])⟩
          · exact keeps_take s t p
        | timedPop n =>
          simp only at h
          rw [← h]
          unfold bodyTimedPop
          split
          · split
            · exact ⟨fun u hu => hu, Or.inr (by simp [caller])⟩
            · exact ⟨fun u hu => by simp only [busy, List.map_append, List.mem_append] at hu ⊢; tauto, Or.inl (by simp [busy])⟩
          · exact keeps_take s t p
      exact ⟨fun u hu => Or.inl (main.1 u hu), fun t' op' p' e => by cases e; exact main.2⟩
  | spuriousNE i =>
    refine ⟨fun u hu => Or.inl ?_, nofun⟩
    simp only [step] at h
    split at h
    · cases h
    · next c hc =>
      cases h
      have := mem_erase_map Cons.t hc u
      simp only [busy, List.map_append, List.mem_append, List.map_cons, List.map_nil, List.mem_singleton] at hu ⊢
      tauto
  | expireNE i =>
    refine ⟨fun u hu => Or.inl ?_, nofun⟩
    simp only [step] at h
    split at h
    · cases h
    · next c hc =>
      split at h
      · cases h
        have := mem_erase_map Cons.t hc u
        simp only [busy, List.map_append, List.mem_append, List.map_cons, List.map_nil, List.mem_singleton] at hu ⊢
        tauto
      · cases h
  | spuriousNF i =>
    refine ⟨fun u hu => Or.inl ?_, nofun⟩
    simp only [step] at h
    split at h
    · cases h
    · next c hc =>
      cases h
      have := mem_erase_map Prod.fst hc u
      simp only [busy, List.map_append, List.mem_append, List.map_cons, List.map_nil, List.mem_singleton] at hu ⊢
      tauto
  | resumeNE i late p =>
    refine ⟨?_, nofun⟩
    simp only [step] at h
    split at h
    · cases h
    · next c w hc =>
      have hb : ∀ u, busy s u → u = c.t ∨ busy { s with kne := s.kne.eraseIdx i } u := by
        intro u hu
        have := mem_erase_map (fun y : Cons × Why => y.1.t) hc u
        simp only [busy] at hu ⊢
        tauto
      refine (fin (t := c.t) (s1 := { s with kne := s.kne.eraseIdx i }) ?_ h hb).1
      unfold bodyResumeNE
      split
      · split
        · exact ⟨fun u hu => hu, Or.inr (by simp [caller])⟩
        · exact keeps_take _ _ _
      · exact keeps_pop _ _ _
  | resumeNF i p =>
    refine ⟨?_, nofun⟩
    simp only [step] at h
    split at h
    · cases h
    · next t x hc =>
      have hb : ∀ u, busy s u → u = t ∨ busy { s with knf := s.knf.eraseIdx i } u := by
        intro u hu
        have := mem_erase_map Prod.fst hc u
        simp only [busy] at hu ⊢
        tauto
      exact (fin (t := t) (s1 := { s with knf := s.knf.eraseIdx i }) (keeps_push _ _ _ _) h hb).1
  | setMax m =>
    simp only [step] at h
    cases h
    exact ⟨fun u hu => Or.inl hu, nofun⟩

/-- **C09, time limits**: the waiting time of a thread that waits for an item can be over exactly if it called a timed pop; `pop` waits without limit. -/
theorem C09_expire_exact (s : St α) (i : Nat) :
    (∃ s' ev, step s (.expireNE i) = .ok s' ev) ↔ ∃ c, s.wne[i]? = some c ∧ c.timed = true := by
  simp only [step]
  constructor
  · rintro ⟨s', ev, h⟩
    split at h
    · cases h
    · next c hc =>
      split at h
      · next ht => exact ⟨c, hc, ht⟩
      · cases h
  · rintro ⟨c, hc, ht⟩
    simp only [hc, ht, if_true]
    exact ⟨_, _, rfl⟩

/-- **C10** (part): in every execution with a fixed positive bound in which no notified `timeout_pop` reports a timeout:
if a consumer waits, at least as many woken consumers that will take an item are under way as there are
items, and if a producer waits, at least as many woken producers are under way as there are free places.
Missing: notified timeouts, a bound that changes, assignment, where it fails (`C10_swallowed_notification`, `C10_raised_bound_not_notified`, `C10_assignment_not_notified`). -/
theorem C10_wakeups_partial {m : Nat} {as : List (Act α)} {s log} (hm : 0 < m) (hs : ∀ a ∈ as, NoLate a)
    (h : run (St.init m) as = some (s, log)) :
    (s.wne ≠ [] → s.q.length ≤ s.kne.countP willTake) ∧
    (s.wnf ≠ [] → m - s.q.length ≤ s.knf.length) := by
  have := run_inv (P := fun s : St α => s.max = m ∧ WInv s) (Q := NoLate)
    (fun s a s' ev hP hQ hst => by
      refine ⟨?_, hP.2.step (by omega) hQ hst⟩
      have h2 := step_max hst
      cases a <;> simp only [] at h2 <;> first | exact hQ.elim | omega)
    ⟨rfl, by simp [St.init], by simp [St.init]⟩ hs h
  exact ⟨this.2.ne, by rw [← this.1]; exact this.2.nf⟩

/-- **C10** (part): such an execution is never stuck: when no woken thread is left to run, a waiting consumer means an
empty queue and a waiting producer means a full one.
Missing: the same as for `C10_wakeups_partial`, and two calls of `swap` (`C10_swap_deadlock`). -/
theorem C10_no_stuck_partial {m : Nat} {as : List (Act α)} {s log} (hm : 0 < m) (hs : ∀ a ∈ as, NoLate a)
    (h : run (St.init m) as = some (s, log)) (hk : s.kne = []) (hf : s.knf = []) :
    (s.wne ≠ [] → s.q = []) ∧ (s.wnf ≠ [] → s.q.length = m) := by
  obtain ⟨h1, h2⟩ := C10_wakeups_partial hm hs h
  have hb := C08_bound hm (Nat.le_refl m) (fun b hb => (hs _ hb).elim) h
  refine ⟨fun hw => ?_, fun hw => ?_⟩
  · have := h1 hw
    simp [hk] at this; exact this
  · have := h2 hw
    simp [hf] at this; omega

/-- **C10** (progress): a woken blocking consumer that gets the mutex while there is an item returns the oldest one. -/
theorem C10_woken_consumer_progresses {s : St α} {i : Nat} {c : Cons} {w : Why} {x : α} {q : List α} (late p)
    (hk : s.kne[i]? = some (c, w)) (ht : c.timed = false) (hq : s.q = x :: q) :
    ∃ s', step s (.resumeNE i late p) = .ok s' [.popped c.t x] ∧ s'.q = q := by
  simp [step, hk, bodyResumeNE, ht, bodyPop, hq, takeFront]

/-- Non-triviality: a consumer and a producer wait; the schedule satisfies `NoLate`. -/
example : run (St.init 1) [.call 0 .pop 0, .call 1 (.push 'a') 0, .call 2 (.push 'b') 0, .resumeNE 0 false 0] =
    some (⟨[], 1, [], [], [], [(2, 'b')]⟩, [.pushed 1 'a', .popped 0 'a']) := by decide

/-- **C10 fails in general** (1): a `timeout_pop` that was notified but reports a timeout swallows the notification: the
blocking `pop` of thread 1 waits, an item is queued, and no thread has been woken. -/
theorem C10_swallowed_notification :
    ∃ s log, run (St.init 5)
        [.call 0 (.timedPop 10) 0, .call 1 .pop 0, .call 2 (.push 'a') 0, .resumeNE 0 true 0] = some (s, log) ∧
      s.wne = [⟨1, false⟩] ∧ s.q = ['a'] ∧ s.kne = [] ∧ s.knf = [] ∧ s.wnf = [] := ⟨_, _, rfl, rfl, rfl, rfl, rfl, rfl⟩

/-- **C10 fails in general** (2): raising the bound does not wake a waiting producer. -/
theorem C10_raised_bound_not_notified :
    ∃ s log, run (St.init 1)
        [.call 0 (.push 'a') 0, .call 1 (.push 'b') 0, .setMax 2] = some (s, log) ∧
      s.wnf = [(1, 'b')] ∧ s.q.length < s.max ∧ s.kne = [] ∧ s.knf = [] := ⟨_, _, rfl, rfl, by decide, rfl, rfl⟩

/-- **C10, assignment and swap, consumers**: after a queue got the items `xs` of another queue by assignment or `swap`, it holds
exactly these, keeps its bound, and no consumer waits while there is an item: all those that waited have been
notified. -/
theorem C10_assign_wakes_consumers (s : St α) (xs : List α) :
    (assignFrom s xs).q = xs ∧ (assignFrom s xs).max = s.max ∧
    ((assignFrom s xs).wne ≠ [] → (assignFrom s xs).q = []) ∧
    (xs ≠ [] → ∀ c ∈ s.wne, (c, Why.notified) ∈ (assignFrom s xs).kne) ∧
    (xs = [] → (assignFrom s xs).wne = s.wne) ∧
    (∀ k ∈ s.kne, k ∈ (assignFrom s xs).kne) := by
  unfold assignFrom
  by_cases h : xs = []
  · simp [h]
  · simp only [h, if_false]
    refine ⟨trivial, trivial, fun h => absurd rfl h, fun _ c hc => ?_, fun hh => absurd hh (by simp), fun k hk => ?_⟩
    · exact List.mem_append_right _ (List.mem_map_of_mem hc)
    · exact List.mem_append_left _ hk

/-- **C10/C12, swap**: `a.swap(b)` exchanges the contents, each queue keeps its own bound, and no consumer of either queue
waits while its queue has an item. -/
theorem C10_swap_exchanges (a b : St α) :
    (swapQ a b).1.q = b.q ∧ (swapQ a b).2.q = a.q ∧
    (swapQ a b).1.max = a.max ∧ (swapQ a b).2.max = b.max ∧
    ((swapQ a b).1.wne ≠ [] → (swapQ a b).1.q = []) ∧ ((swapQ a b).2.wne ≠ [] → (swapQ a b).2.q = []) := by
  obtain ⟨h1, h2, h3, _⟩ := C10_assign_wakes_consumers a b.q
  obtain ⟨g1, g2, g3, _⟩ := C10_assign_wakes_consumers b a.q
  exact ⟨h1, g1, h2, g2, h3, g3⟩

/-- non-vacuity: a consumer waits on an empty queue that is then assigned one item -/
example : ∃ s log, run (St.init 1) [.call 0 .pop 0] = some (s, log) ∧ s.wne = [⟨0, false⟩] ∧
    (assignFrom s ['a']).kne = [(⟨0, false⟩, .notified)] := ⟨_, _, rfl, rfl, rfl⟩

/-- **C08 fails for assignment and swap**: the bound of the target is kept but not applied, so a queue with bound 1 can hold
two items. -/
theorem C08_violation_assign_exceeds_bound :
    ∃ s log, run (St.init 2) [.call 0 (.push 1) 0, .call 0 (.push 2) 0] = some (s, log) ∧
      (swapQ (St.init 1) s).1.max = 1 ∧ (swapQ (St.init 1) s).1.size = 2 := ⟨_, _, rfl, rfl, rfl⟩

/-- **C10 fails in general** (3): assigning an empty queue to a full one on which a producer waits leaves the producer
waiting although there is room. -/
theorem C10_assignment_not_notified :
    ∃ s log, run (St.init 1) [.call 0 (.push 'a') 0, .call 1 (.push 'b') 0] = some (s, log) ∧
      (assignFrom s []).wnf = [(1, 'b')] ∧ (assignFrom s []).q.length < (assignFrom s []).max ∧
      (assignFrom s []).knf = [] := ⟨_, _, rfl, rfl, by decide, rfl⟩

/-- **C10 fails in general** (4): `a.swap(b)` and `b.swap(a)` called concurrently can block each other for ever. -/
theorem C10_swap_deadlock :
    ∃ s1 s2, lockStep Locks.init false = some s1 ∧ lockStep s1 true = some s2 ∧
      (∀ t, s2.pc t ≠ .done) ∧ (∀ t, lockStep s2 t = none) := by
  refine ⟨_, _, rfl, rfl, ?_, ?_⟩ <;> (intro t; cases t <;> decide)

/-- All pairs of calls of `swap` that block each other block in the same way: both hold one lock.  In every other reachable situation the
two calls come to their end. -/
inductive LReach : Locks → Prop where
  | init : LReach Locks.init
  | step {s s' : Locks} {t : Bool} : LReach s → lockStep s t = some s' → LReach s'

/-- Which locks are taken, by where the calls are. -/
def lockOwner (pc : Bool → LockPc) (m : Bool) : Option Bool :=
  if pc m = .one ∨ pc m = .both then some m else if pc (!m) = .both then some (!m) else none

def LInvB (s : Locks) : Prop := (∀ m, s.owner m = lockOwner s.pc m) ∧ ¬ (s.pc false = .both ∧ (s.pc true = .one ∨ s.pc true = .both)) ∧
  ¬ (s.pc true = .both ∧ (s.pc false = .one ∨ s.pc false = .both))

theorem LReach.inv {s : Locks} (h : LReach s) : LInvB s := by
  induction h with
  | init => exact ⟨fun m => by cases m <;> rfl, by decide, by decide⟩
  | @step s s' t _ hs ih =>
    obtain ⟨h1, h2, h3⟩ := ih
    have ha := h1 false
    have hb := h1 true
    cases t <;> cases e1 : s.pc false <;> cases e2 : s.pc true <;>
      simp [lockStep, firstLock, secondLock, e1, e2, lockOwner] at hs ha hb h2 h3 <;>
      (try simp [ha, hb] at hs) <;> (try subst hs) <;>
      (refine ⟨fun m => ?_, ?_, ?_⟩ <;> (try cases m) <;> simp [lockOwner, e1, e2, ha, hb])

/-- Runs of the two threads. -/
def lockRun (s : Locks) : List Bool → Option Locks
  | [] => some s
  | t :: ts => match lockStep s t with
    | none => none
    | some s' => lockRun s' ts

/-- Steps left of a call. -/
def stepsLeft : LockPc → Nat
  | .idle => 3
  | .one => 2
  | .both => 1
  | .done => 0

/-- A schedule that ends both calls: the one that is further goes first. -/
def finishBoth (p q : LockPc) : List Bool :=
  if stepsLeft p ≤ stepsLeft q then List.replicate (stepsLeft p) false ++ List.replicate (stepsLeft q) true
  else List.replicate (stepsLeft q) true ++ List.replicate (stepsLeft p) false

theorem finish_both (p q : LockPc) (h2 : ¬ (p = .both ∧ (q = .one ∨ q = .both))) (h3 : ¬ (q = .both ∧ (p = .one ∨ p = .both))) (h4 : ¬ (p = .one ∧ q = .one)) :
    (lockRun ⟨fun t => if t then q else p, lockOwner (fun t => if t then q else p)⟩ (finishBoth p q)).map (fun s => (s.pc false, s.pc true)) =
      some (.done, .done) := by
  cases p <;> cases q <;> first | rfl | (exfalso; simp at h2 h3 h4)

/-- **C10**, exactly when two opposite calls of `swap` (or of assignment) block each other: in every reachable situation but the one where each
of them holds its first lock, both calls can still come to their end; in that one neither can move. -/
theorem C10_swap_deadlock_exact {s : Locks} (h : LReach s) :
    (s.pc false = .one ∧ s.pc true = .one ∧ ∀ t, lockStep s t = none) ∨
    ∃ ts s', lockRun s ts = some s' ∧ s'.pc false = .done ∧ s'.pc true = .done := by
  obtain ⟨h1, h2, h3⟩ := h.inv
  by_cases h4 : s.pc false = .one ∧ s.pc true = .one
  · left
    refine ⟨h4.1, h4.2, fun t => ?_⟩
    have ha := h1 false
    have hb := h1 true
    cases t <;> simp [lockStep, secondLock, h4.1, h4.2, ha, hb, lockOwner]
  · right
    have e : s = ⟨fun t => if t then s.pc true else s.pc false, lockOwner (fun t => if t then s.pc true else s.pc false)⟩ := by
      have e1 : s.pc = fun t => if t then s.pc true else s.pc false := by funext t; cases t <;> rfl
      have e2 : s.owner = lockOwner s.pc := funext h1
      cases s
      simp only [Locks.mk.injEq] at *
      exact ⟨e1, by rw [← e1]; exact e2⟩
    have := finish_both (s.pc false) (s.pc true) h2 h3 h4
    rw [← e] at this
    obtain ⟨s', hs, he⟩ := Option.map_eq_some_iff.mp this
    simp only [Prod.mk.injEq] at he
    exact ⟨_, s', hs, he⟩

/-- **C11** (part): if only one thread pops and no waiting consumer wakes spuriously, no execution reads the
front of an empty queue.
Missing: spurious wake-ups and several consumers, where it fails (`C11_spurious_wakeup_ub`, `C11_stolen_item_ub`). -/
theorem C11_no_empty_front_partial {m : Nat} {as : List (Act α)} (c : Nat) (ho : ∀ a ∈ as, OnlyCons c a) :
    ¬ HitsUB (St.init m) as :=
  oneCons_noUB (s := St.init m) ⟨by simp [St.init], by simp [St.init], by simp [St.init]⟩ ho

/-- **C11**: when `timeout_pop` returns, it gives the oldest item, or nothing while leaving the queue unchanged. -/
theorem C11_timed_pop_result {s s' : St α} {i late p c w ev} (hk : s.kne[i]? = some (c, w)) (ht : c.timed = true)
    (h : step s (.resumeNE i late p) = .ok s' ev) :
    (ev = [.popFailed c.t] ∧ s'.q = s.q) ∨ (∃ x q, s.q = x :: q ∧ ev = [.popped c.t x] ∧ s'.q = q) := by
  simp only [step, hk, bodyResumeNE, ht, if_true, takeFront] at h
  split at h
  · cases h; simp
  · split at h
    · cases h
    · cases h; rename_i x q hq; right; exact ⟨x, q, hq, rfl, by simp⟩

/-- The restriction of the partial theorem is met by a poller with concurrent producers. -/
example : (∀ a ∈ [Act.call 0 (.timedPop 5) 0, .call 1 (.push 'a') 0, .resumeNE 0 false 0], OnlyCons 0 a) ∧
    run (St.init 3) [.call 0 (.timedPop 5) 0, .call 1 (.push 'a') 0, .resumeNE 0 false 0] =
      some (St.init 3, [.pushed 1 'a', .popped 0 'a']) := by
  constructor
  · intro a ha; simp at ha; rcases ha with rfl | rfl | rfl <;> simp [OnlyCons]
  · rfl

/-- **C11 fails in general** (1): a spurious wake-up makes `timeout_pop` read an empty queue. -/
theorem C11_spurious_wakeup_ub :
    HitsUB (St.init (α := Nat) 5) [.call 0 (.timedPop 10) 0, .spuriousNE 0, .resumeNE 0 false 0] := by
  simp [HitsUB, step, busy, St.init, bodyTimedPop, bodyPush, notifyNE, notifyNF, bodyTryPop, takeFront, bodyResumeNE]

/-- **C11 fails in general** (2): without any spurious wake-up, a second consumer that takes the item first makes the
notified `timeout_pop` read an empty queue. -/
theorem C11_stolen_item_ub :
    HitsUB (St.init 5)
      [.call 0 (.timedPop 10) 0, .call 1 (.push 'a') 0, .call 2 .tryPop 0, .resumeNE 0 false 0] := by
  simp [HitsUB, step, busy, St.init, bodyTimedPop, bodyPush, notifyNE, notifyNF, bodyTryPop, takeFront, bodyResumeNE]

/-- **C12 fails for `push`**: with bound 0 no blocking push ever returns, in any execution in which the bound is not
changed, whatever consumers do. -/
theorem C12_bound0_push_never_returns {as : List (Act α)} {s log}
    (hs : ∀ b, Act.setMax b ∉ as) (h : run (St.init 0) as = some (s, log)) :
    ∀ t x, Ev.pushed t x ∉ log := by
  have key : ∀ (as : List (Act α)) (s0 : St α) s log, s0.max = 0 → (∀ b, Act.setMax b ∉ as) →
      run s0 as = some (s, log) → ∀ t x, Ev.pushed t x ∉ log := by
    intro as
    induction as with
    | nil => intro s0 s log _ _ h; simp only [run] at h; cases h; simp
    | cons a rest ih =>
      intro s0 s log hm hs h t x hx
      obtain ⟨s1, ev, log', h1, h2, rfl⟩ := run_cons h
      have h3 := step_max h1
      rcases List.mem_append.mp hx with hx | hx
      · exact step_no_pushed hm h1 t x hx
      · refine ih s1 s log' ?_ (fun b hb => hs b (by simp [hb])) h2 t x hx
        cases a <;> simp only [] at h3 <;> first | exact absurd List.mem_cons_self (hs _) | omega
  exact key as _ s log rfl hs h

/-- **C12** (part): with bound 0 `try_push` never fails and `force_move_push` never discards.
Missing: the blocking push, where it fails (`C12_bound0_push_never_returns`). -/
theorem C12_bound0_try_force_partial (s : St α) (hm : s.max = 0) (t : Nat) (hb : ¬ busy s t) (x : α) (p : Nat) :
    (∃ s', step s (.call t (.tryPush x) p) = .ok s' [.tryPushed t x true] ∧ s'.q = s.q ++ [x]) ∧
    (∃ s', step s (.call t (.forcePush x) p) = .ok s' [.forced t x 0] ∧ s'.q = s.q ++ [x]) := by
  constructor
  · simp [step, hb, bodyTryPush, hm]
  · simp [step, hb, bodyForcePush, hm, dropOld_zero]

/-- **C12** (part): copy and move construction keep the content.
Missing: the bound, which is lost (`C12_copy_loses_bound`). -/
theorem C12_copy_content_partial (src : St α) : (copyCtor src).q = src.q := rfl

/-- **C12 fails for copies**: ... but the copy of a bounded queue is not bounded for `try_push` and blocks `push` for
ever. -/
theorem C12_copy_loses_bound :
    ∃ s log, run (St.init 1) [.call 0 (.push 'a') 0] = some (s, log) ∧ s.full = true ∧
      (copyCtor s).full = false ∧
      step (copyCtor (St.init (α := Char) 1)) (.call 0 (.push 'b') 0) =
        .ok ⟨[], 0, [], [], [(0, 'b')], []⟩ [] := by
  refine ⟨_, _, rfl, ?_, ?_, ?_⟩ <;> rfl

end Verif.SQ
