import Verif.Lemmas.BasicMiddleware

/-! C13: event accounting of the in-memory middleware built on `SafeQueue`. -/

namespace Verif.BM
open Verif.SQ

variable {α : Type}

/-- **C13**, `discardItemsWhenFull`: in every execution publish never waits (no thread is ever blocked on a full queue),
and the number of published events is delivered + in the poller's hand + queued + counted as discarded + about to be
counted. -/
theorem C13_discard_accounting {n : Nat} {as : List (Act α)} {s log}
    (h : run true (St.init n) as = some (s, log)) :
    (published as).length =
      s.emitted.length + s.hand.length + s.sq.q.length + s.discarded + pending s ∧
    s.sq.wnf = [] := by
  obtain ⟨h1, h2, h3, _, h5⟩ := run_eff h
  obtain ⟨p1, p2, _⟩ := h5 rfl rfl rfl
  refine ⟨?_, p2⟩
  have l1 := congrArg List.length h1
  have l3 := congrArg List.length h3
  have l4 := takenOut_length log
  simp [St.init, SQ.St.init, pending] at *
  rw [← p1]
  omega

/-- **C13**: events reach the emitter in publication order: what was emitted, followed by the event in the poller's hand, is a
subsequence of the published events in the order they entered the queue, and the events still queued come after. -/
theorem C13_discard_order {n : Nat} {as : List (Act α)} {s log}
    (h : run true (St.init n) as = some (s, log)) :
    (s.emitted ++ s.hand ++ s.sq.q).Sublist (published as) := by
  obtain ⟨h1, _, h3, _, h5⟩ := run_eff h
  obtain ⟨p1, _, _⟩ := h5 rfl rfl rfl
  rw [← p1, h3]
  simp [St.init, SQ.St.init] at *
  rw [h1]
  exact (popped_sublist log).append (List.Sublist.refl _)

/-- **C13**, blocking mode: nothing is ever discarded: the events that entered the queue are exactly the emitted ones, the
one in the poller's hand and the queued ones, in this order; the discard statistics stay 0. -/
theorem C13_blocking_no_loss {n : Nat} {as : List (Act α)} {s log}
    (h : run false (St.init n) as = some (s, log)) :
    putIn log = s.emitted ++ s.hand ++ s.sq.q ∧ s.discarded + pending s = 0 := by
  obtain ⟨h1, h2, h3, h4, _⟩ := run_eff h
  have h0 := h4 rfl
  rw [h3, popped_eq log h0]
  refine ⟨?_, ?_⟩
  · simpa [St.init, SQ.St.init] using h1
  · rw [h2, h0]; rfl

/-- **C13**: in discard mode publish is possible in every state for every thread that is not inside publish already and is
not the poller: it never waits. -/
theorem C13_publish_never_blocks (s : St α) (t : Nat) (x : α) (p : Nat) (h0 : t ≠ poller)
    (h1 : t ∉ s.pend.map (·.1)) (h2 : ¬ busy s.sq t) :
    ∃ s' ev n, step true s (.publish t x p) = some (s', ev ++ [.forced t x n]) := by
  simp only [step, h0, h1, false_or, if_false, if_true, SQ.step, h2, bodyForcePush]
  exact ⟨_, _, _, rfl⟩

/-- Non-triviality: bound 1, two publishers, one discard, one event delivered. -/
example : ∃ s log, run true (St.init 1)
    [.publish 1 'a' 0, .publish 2 'b' 0, .account 2, .account 1, .poll 5 0, .publish 1 'c' 0, .emit] = some (s, log) ∧
    s.emitted = ['b'] ∧ s.sq.q = ['c'] ∧ s.discarded = 1 := ⟨_, _, rfl, rfl, rfl, rfl⟩

/-- The poller waits on an empty queue, is woken by a publication and delivers the event; a waiting publisher is woken by the poller. -/
theorem C13_example_waiting : (∃ s log, run false (St.init 1) [.poll 5 0, .publish 1 'a' 0, .wake (.resumeNE 0 false 0), .emit] = some (s, log) ∧
      s.emitted = ['a'] ∧ s.sq.q = []) ∧
    ∃ s log, run false (St.init 1) [.publish 1 'a' 0, .publish 2 'b' 0, .poll 5 0, .wake (.resumeNF 0 0), .emit, .poll 5 0, .emit] = some (s, log) ∧
      s.emitted = ['a', 'b'] ∧ s.sq.wnf = [] := ⟨⟨_, _, rfl, rfl, rfl⟩, _, _, rfl, rfl, rfl⟩

/-- With a queue of bound 0 (documented "no limit") and blocking mode, no event is ever delivered: `publish` does not
return (see `C12_bound0_push_never_returns`). -/
theorem C13_bound0_blocking_delivers_nothing {as : List (Act α)} {s log}
    (h : run false (St.init 0) as = some (s, log)) : s.emitted = [] ∧ putIn log = [] := by
  have key : ∀ (as : List (Act α)) (s0 s : St α) log, s0.sq.max = 0 →
      run false s0 as = some (s, log) → putIn log = [] := by
    intro as
    induction as with
    | nil => intro s0 s log _ h; simp only [run] at h; cases h; rfl
    | cons a rest ih =>
      intro s0 s log hm h
      obtain ⟨s1, ev, log', h1, h2, rfl⟩ := run_cons h
      have hq : ∀ b q ev, SQ.step s0.sq b = .ok q ev → (∀ t x p, b ≠ .call t (.tryPush x) p) →
          (∀ t x p, b ≠ .call t (.forcePush x) p) → (∀ m, b ≠ .setMax m) → putIn ev = [] ∧ q.max = 0 := by
        intro b q ev hb n1 n2 n3
        constructor
        · have := step_no_pushed hm hb
          have hd := sq_disc_zero hb n2
          cases b <;> sq_cases hb <;> simp_all [putIn, Ev.ins]
        · have := step_max hb
          cases b <;> simp_all
      have hs1 : putIn ev = [] ∧ s1.sq.max = 0 := by
        cases a with
        | publish t x pick =>
          simp only [step] at h1
          split at h1
          · cases h1
          · split at h1
            · rename_i q ev' hs
              cases h1
              obtain ⟨e1, _⟩ := absorb_spec { s0 with sq := q } ev
              rw [e1]
              exact hq _ _ _ hs (by simp) (by simp) (by simp)
            · cases h1
        | account t =>
          simp only [step] at h1
          split at h1 <;> cases h1
          exact ⟨rfl, hm⟩
        | poll timeout pick =>
          simp only [step] at h1
          split at h1
          · cases h1
          · split at h1
            · rename_i q ev' hs
              cases h1
              obtain ⟨e1, _⟩ := absorb_spec { s0 with sq := q } ev
              rw [e1]
              exact hq _ _ _ hs (by simp) (by simp) (by simp)
            · cases h1
        | emit =>
          simp only [step] at h1
          split at h1 <;> cases h1
          exact ⟨rfl, hm⟩
        | wake b =>
          simp only [step] at h1
          split at h1
          · rename_i hw
            split at h1
            · rename_i q ev' hs
              cases h1
              obtain ⟨e1, _⟩ := absorb_spec { s0 with sq := q } ev
              rw [e1]
              refine hq _ _ _ hs ?_ ?_ ?_ <;> cases b <;> simp_all [isWake]
            · cases h1
          · cases h1
      have := ih s1 s log' hs1.2 h2
      simp only [putIn, List.flatMap_append] at *
      rw [this, hs1.1]; rfl
  have hp := key as _ s log rfl h
  refine ⟨?_, hp⟩
  have := (C13_blocking_no_loss h).1
  rw [hp] at this
  have := congrArg List.length this
  simp at this
  exact List.length_eq_zero_iff.mp (by omega)

end Verif.BM
