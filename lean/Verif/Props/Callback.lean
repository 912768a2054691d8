import Verif.Lemmas.Callback

/-!
Properties of the callback handlers (C43, C44).  `Reach corr Plain`: every sequence of requests and replies, replies arriving at any time
outside callbacks, also from inside `publish` (to any depth); callbacks do not use the handler and do not throw.  `MReach corr NoThrow`: every
interleaving of any number of threads on the handler with a mutex, re-entrant calls included; callbacks do not throw.  `corr` is any relation.
-/

namespace Verif.Callback
open Verif

variable {Q R : Type}

/-! ### C43 -/

/-- **C43**, single threaded handler: every reply was given to the callback of the oldest waiting request that correlates, and to nobody exactly
if there is none; no callback was called twice; no invalid iterator was used.  Missing: callbacks that use the handler or throw, where it fails
(below). -/
theorem C43_replies_matched_partial {corr : Q → R → Bool} {s : St Q R} (h : Reach corr Plain s) :
    Right corr s.hist ∧ (calls s.hist).Nodup ∧ s.undefined = false := by
  cases h.inv with
  | user h _ hu => exact ⟨h.right, h.once, hu⟩
  | callback i k q st h _ _ _ hu => exact ⟨h.right, h.once, hu⟩

/-- **C43**, handler with a mutex: the same for every interleaving of threads.
Missing: callbacks that throw, after which they are called again. -/
theorem C43_replies_matched_threads_partial {corr : Q → R → Bool} {s : MSt Q R} (h : MReach corr NoThrow s) :
    Right corr s.hist ∧ (calls s.hist).Nodup := by
  obtain ⟨call, h1, _⟩ := h.inv.vec
  exact ⟨h1.right, h1.once⟩

/-- **C43**: between calls the handler keeps exactly the requests that wait for a reply. -/
theorem C43_keeps_waiting_requests {corr : Q → R → Bool} {s : St Q R} (h : Reach corr Plain s) (hst : ∀ k v st, s.stack ≠ .calling k v :: st) (i : Nat) (q : Q) :
    (i, q) ∈ s.vec ↔ Waiting s.hist i q := by
  cases h.inv with
  | user h _ _ => exact (h.waiting i q).symm
  | callback _ k _ st _ hs _ _ _ => exact absurd hs (hst _ _ _)

/-- **C43**: a reply that correlates with no waiting request changes nothing but the history. -/
theorem C43_unmatched_reply_changes_nothing {corr : Q → R → Bool} {s : St Q R} (h : Reach corr Plain s) (hst : ∀ k v st, s.stack ≠ .calling k v :: st) {p : R}
    (hp : ∀ i q, Waiting s.hist i q → corr q p = false) : step corr s (.reply p) = some { s with hist := .reply p none :: s.hist } := by
  simp only [step]
  cases hf : firstMatch corr p s.vec with
  | none => rfl
  | some x =>
    obtain ⟨k, i⟩ := x
    have hv : VecInv corr s.vec s.next s.hist none := by
      cases h.inv with
      | user h _ _ => exact h
      | callback _ k _ st _ hs _ _ _ => exact absurd hs (hst _ _ _)
    obtain ⟨q, h1, h2, _⟩ := firstMatch_some hv.sorted hf
    have := hp i q ((hv.waiting i q).mpr (List.mem_of_getElem? h1))
    rw [h2] at this; cases this

/-- The hypotheses are met: two requests, a reply to the second, one from inside `publish` of a third to the first, one to nobody. -/
theorem C43_example : ∃ s : St Nat Nat, Reach (fun q p => q == p) Plain s ∧
    s.hist.reverse = [.request 0 5, .request 1 6, .reply 6 (some 1), .request 2 5, .reply 5 (some 0), .reply 7 none] ∧ s.vec = [(2, 5)] := by
  refine ⟨⟨[(2, 5)], 3, [], [.reply 7 none, .reply 5 (some 0), .request 2 5, .reply 6 (some 1), .request 1 6, .request 0 5], false⟩, ?_, rfl, rfl⟩
  refine .step (a := .ret) (s := ⟨[(2, 5)], 3, [.publishing], _, false⟩) ?_ trivial rfl
  refine .step (a := .reply 7) (s := ⟨[(2, 5)], 3, [.publishing], _, false⟩) ?_ (by intro k v st h; cases h) rfl
  refine .step (a := .ret) (s := ⟨[(0, 5), (2, 5)], 3, [.calling 0 true, .publishing], _, false⟩) ?_ trivial rfl
  refine .step (a := .reply 5) (s := ⟨[(0, 5), (2, 5)], 3, [.publishing], _, false⟩) ?_ (by intro k v st h; cases h) rfl
  refine .step (a := .request 5 true) (s := ⟨[(0, 5)], 2, [], _, false⟩) ?_ (by intro k v st h; cases h) rfl
  refine .step (a := .ret) (s := ⟨[(0, 5), (1, 6)], 2, [.calling 1 true], _, false⟩) ?_ trivial rfl
  refine .step (a := .reply 6) (s := ⟨[(0, 5), (1, 6)], 2, [], _, false⟩) ?_ (by intro k v st h; cases h) rfl
  refine .step (a := .ret) (s := ⟨[(0, 5), (1, 6)], 2, [.publishing], _, false⟩) ?_ trivial rfl
  refine .step (a := .request 6 false) (s := ⟨[(0, 5)], 1, [], _, false⟩) ?_ (by intro k v st h; cases h) rfl
  refine .step (a := .ret) (s := ⟨[(0, 5)], 1, [.publishing], _, false⟩) ?_ trivial rfl
  exact .step (a := .request 5 true) .init (by intro k v st h; cases h) rfl

/-- Finding against **C43**: a reply delivered from inside a callback (synchronous middleware) that correlates with the same request calls the
same callback again, because the request is erased only after the callback; the second erase then uses an invalid iterator. -/
theorem C43_violation_called_twice :
    (run (fun q p : Nat => q == p) St.init [.request 5 true, .ret, .reply 5, .reply 5, .ret, .ret]).map (fun s => (calls s.hist, s.undefined)) =
      some ([0, 0], true) := by decide +kernel

/-- Finding against **C43**: a callback that issues another request: `push_back` reallocates and `erase(it)` uses an invalid iterator. -/
theorem C43_violation_request_in_callback :
    (run (fun q p : Nat => q == p) St.init [.request 5 true, .ret, .reply 5, .request 6 true, .ret, .ret]).map (fun s => (s.vec, s.undefined)) =
      some ([(0, 5), (1, 6)], true) := by decide +kernel

/-- Finding against **C43**: a callback that throws is called again for the next correlated reply. -/
theorem C43_violation_throwing_callback :
    (run (fun q p : Nat => q == p) St.init [.request 5 true, .ret, .reply 5, .throw, .reply 5, .ret]).map (fun s => (calls s.hist, s.undefined)) =
      some ([0, 0], false) := by decide +kernel

/-! ### C44 -/

/-- **C44**, single threaded handler: a reply delivered from inside `publish` is handled there (matched as C43 says), and `requestAndReply`
returns.
Missing: the handler with a mutex, which deadlocks (`C44_reentrant_call_deadlocks`), and callbacks that use the handler (C43). -/
theorem C44_synchronous_reply_partial {corr : Q → R → Bool} {s : St Q R} (h : Reach corr Plain s) {st : List Frame} (hst : s.stack = .publishing :: st)
    (p : R) : ∃ as s1 s2 dst, (as = [.reply p] ∨ as = [.reply p, .ret]) ∧ run corr s as = some s1 ∧ s1.hist = .reply p dst :: s.hist ∧
      MatchOk corr s.hist p dst ∧ s1.stack = .publishing :: st ∧ step corr s1 .ret = some s2 ∧ s2.stack = st := by
  have hv : VecInv corr s.vec s.next s.hist none ∧ AllPub s.stack := by
    cases h.inv with
    | user h h' _ => exact ⟨h, h'⟩
    | callback _ k _ st _ hs _ _ _ => rw [hst] at hs; cases hs
  obtain ⟨hv, hp⟩ := hv
  cases hf : firstMatch corr p s.vec with
  | none =>
    refine ⟨[.reply p], { s with hist := .reply p none :: s.hist }, { s with hist := .reply p none :: s.hist, stack := st }, none, .inl rfl, ?_, rfl,
      (hv.unmatched hf).right.1, hst, ?_, rfl⟩
    · simp [run, step, hf]
    · simp [step, hst]
  | some x =>
    obtain ⟨k, i⟩ := x
    refine ⟨[.reply p, .ret], { s with hist := .reply p (some i) :: s.hist, vec := s.vec.eraseIdx k },
      { s with hist := .reply p (some i) :: s.hist, vec := s.vec.eraseIdx k, stack := st }, some i, .inr rfl, ?_, rfl, (hv.matched hf).1.right.1, hst, ?_, rfl⟩
    · simp [run, step, hf, hp.map_erased]
    · simp [step, hst]

/-- Further steps of any kind. -/
inductive MSteps (corr : Q → R → Bool) : MSt Q R → MSt Q R → Prop where
  | refl (s) : MSteps corr s s
  | step {s s1 s2 a} : MSteps corr s s1 → mstep corr s1 a = some s2 → MSteps corr s s2

/-- **C44** fails for the handler with a mutex, in general: a thread that comes back to the handler from inside `publish` or a callback (a
synchronous reply, or a request in a callback) waits for the mutex it holds itself; neither it nor any other call on the handler ever makes
progress again: nothing is added to the history, whatever happens. -/
theorem C44_reentrant_call_deadlocks {corr : Q → R → Bool} {s s' : MSt Q R} {P : MSt Q R → MAct Q R → Prop} (hr : MReach corr P s) {t : Nat} {f g : MFrame Q R}
    {st : List (MFrame Q R)} (hst : s.stack t = f :: g :: st) (hs : MSteps corr s s') :
    s'.stack t = f :: g :: st ∧ s'.owner = some t ∧ s'.hist = s.hist ∧ ∀ a s'', mstep corr s' a = some s'' → s''.hist = s.hist := by
  have hx : s.owner = some t ∧ ¬ Held f := by
    have := hr.stacks t
    rw [hst] at this
    cases this with
    | stuck f g hf hg h => exact ⟨h, hf⟩
  obtain ⟨ho, hf⟩ := hx
  have hno : ∀ u, u ≠ t → ∀ h ∈ s.stack u, ¬ Held h := by
    intro u hu h hh
    have h1 := hr.stacks u
    have h2 : s.owner ≠ some u := by rw [ho]; simp; exact fun e => hu e.symm
    generalize s.stack u = l at h1 hh
    cases h1 with
    | empty h => cases hh
    | want f hf h => simp only [List.mem_singleton] at hh; subst hh; exact hf
    | hold f hf h => exact absurd h h2
    | stuck f g hf hg h => exact absurd h h2
  suffices H : ∀ s', MSteps corr s s' → s'.owner = some t ∧ s'.stack t = f :: g :: st ∧ s'.hist = s.hist ∧ ∀ u, u ≠ t → ∀ h ∈ s'.stack u, ¬ Held h from
    ⟨(H s' hs).2.1, (H s' hs).1, (H s' hs).2.2.1, fun a s'' ha => (H s'' (hs.step ha)).2.2.1⟩
  clear hs
  intro s' hs
  induction hs with
  | refl => exact ⟨ho, hst, rfl, hno⟩
  | @step s1 s2 a _ hs ih =>
    obtain ⟨i1, i2, i3, i4⟩ := ih
    have hcan : canCall (s1.stack t) = false := by
      rw [i2]; cases f <;> first | rfl | exact absurd trivial hf
    have push : ∀ (u : Nat) (x : MFrame Q R), ¬ Held x → canCall (s1.stack u) = true → s2 = { s1 with stack := upd s1.stack u (x :: s1.stack u) } →
        s2.owner = some t ∧ s2.stack t = f :: g :: st ∧ s2.hist = s.hist ∧ ∀ u, u ≠ t → ∀ h ∈ s2.stack u, ¬ Held h := by
      intro u x hx hc e
      subst e
      have hu : t ≠ u := by rintro rfl; rw [hcan] at hc; cases hc
      refine ⟨i1, by simp only [upd_apply, if_neg hu]; exact i2, i3, ?_⟩
      intro v hv h hh
      simp only [upd_apply] at hh
      split at hh
      · next e =>
        rcases List.mem_cons.mp hh with rfl | hh
        · exact hx
        · exact i4 v hv h (by rw [e]; exact hh)
      · exact i4 v hv h hh
    cases a with
    | callReq u q =>
      simp only [mstep] at hs
      split at hs
      · next hc => exact push u (.wantReq q) (fun h => h) hc (by simpa using hs.symm)
      · cases hs
    | callReply u p =>
      simp only [mstep] at hs
      split at hs
      · next hc => exact push u (.wantReply p) (fun h => h) hc (by simpa using hs.symm)
      · cases hs
    | lock u => simp only [mstep, i1] at hs; cases hs
    | ret u =>
      simp only [mstep] at hs
      split at hs
      · next l e =>
        by_cases hu : u = t
        · subst hu; rw [i2] at e; cases e; exact absurd trivial hf
        · exact absurd trivial (i4 u hu .publishing (by rw [e]; exact List.mem_cons_self ..))
      · next k l e =>
        by_cases hu : u = t
        · subst hu; rw [i2] at e; cases e; exact absurd trivial hf
        · exact absurd trivial (i4 u hu (.calling k) (by rw [e]; exact List.mem_cons_self ..))
      · cases hs
    | throw u =>
      simp only [mstep] at hs
      split at hs
      · next l e =>
        by_cases hu : u = t
        · subst hu; rw [i2] at e; cases e; exact absurd trivial hf
        · exact absurd trivial (i4 u hu .publishing (by rw [e]; exact List.mem_cons_self ..))
      · next k l e =>
        by_cases hu : u = t
        · subst hu; rw [i2] at e; cases e; exact absurd trivial hf
        · exact absurd trivial (i4 u hu (.calling k) (by rw [e]; exact List.mem_cons_self ..))
      · cases hs

/-- **C44** for the handler with a mutex, partly: as long as nobody calls the handler from inside `publish` or a callback, whenever a call is in
progress some call can take its next step: the holder of the mutex can return or throw, and both release the mutex, or a waiting call can get
the mutex.  Executions with exceptions included.
Missing: synchronous replies and requests in callbacks, where it fails (`C44_reentrant_call_deadlocks`). -/
theorem C44_no_deadlock_without_reentrance_partial {corr : Q → R → Bool} {s : MSt Q R} {P : MSt Q R → MAct Q R → Prop} (hr : MReach corr P s) (hne : ∀ t, (s.stack t).length ≤ 1)
    {t : Nat} (ht : s.stack t ≠ []) : (∃ u s1 s2, mstep corr s (.ret u) = some s1 ∧ mstep corr s (.throw u) = some s2 ∧ s1.owner = none ∧ s2.owner = none) ∨ (∃ s', mstep corr s (.lock t) = some s') := by
  cases ho : s.owner with
  | some u =>
    have hu := hr.stacks u
    have hl := hne u
    generalize e : s.stack u = l at hu hl
    cases hu with
    | empty h => exact absurd ho h
    | want f hf h => exact absurd ho h
    | hold f hf h =>
      refine .inl ⟨u, ?_⟩
      cases f with
      | publishing => exact ⟨_, _, by simp only [mstep, e]; rfl, by simp only [mstep, e]; rfl, rfl, rfl⟩
      | calling k => exact ⟨_, _, by simp only [mstep, e]; rfl, by simp only [mstep, e]; rfl, rfl, rfl⟩
      | wantReq q => exact hf.elim
      | wantReply q => exact hf.elim
    | stuck f g hf hg h => simp at hl
  | none =>
    have hu := hr.stacks t
    generalize e : s.stack t = l at hu ht
    cases hu with
    | empty h => exact absurd rfl ht
    | hold f hf h => rw [ho] at h; cases h
    | stuck f g hf hg h => rw [ho] at h; cases h
    | want f hf h =>
      right
      cases f with
      | publishing => exact absurd trivial hf
      | calling k => exact absurd trivial hf
      | wantReq q => exact ⟨_, by simp only [mstep, e, ho]; rfl⟩
      | wantReply q =>
        simp only [mstep, e, ho]
        split
        · exact ⟨_, rfl⟩
        · exact ⟨_, rfl⟩

/-- Finding against **C44**: the hypotheses of `C44_reentrant_call_deadlocks` are met by a synchronous reply: the thread in `publish` delivers the
reply itself. -/
theorem C44_violation_synchronous_reply : ∃ s : MSt Nat Nat, MReach (fun q p => q == p) NoThrow s ∧ s.stack 0 = [.wantReply 5, .publishing] ∧
    s.hist = [.request 0 5] := by
  refine ⟨⟨[(0, 5)], 1, some 0, upd (upd (upd (fun _ => []) 0 [.wantReq 5]) 0 [.publishing]) 0 [.wantReply 5, .publishing], [.request 0 5]⟩, ?_, by simp, rfl⟩
  refine .step (a := .callReply 0 5) (s := ⟨[(0, 5)], 1, some 0, upd (upd (fun _ => []) 0 [.wantReq 5]) 0 [.publishing], [.request 0 5]⟩) ?_ trivial
    (by simp [mstep, canCall])
  refine .step (a := .lock 0) (s := ⟨[], 0, none, upd (fun _ => []) 0 [.wantReq 5], []⟩) ?_ trivial (by simp [mstep])
  exact .step (a := .callReq 0 5) .init trivial (by simp [mstep, canCall, MSt.init])

/-- Two threads that interleave on the handler with a mutex. -/
theorem C43_threads_example : ((mrun (fun q p : Nat => q == p) MSt.init [.callReq 0 5, .callReq 1 6, .lock 1, .callReply 2 6, .ret 1, .lock 0, .ret 0, .lock 2,
    .callReply 1 5, .ret 2, .lock 1, .ret 1]).map (fun s => (s.hist.reverse, s.vec, s.owner))) =
    some ([.request 0 6, .request 1 5, .reply 6 (some 0), .reply 5 (some 1)], [], none) := by decide +kernel

end Verif.Callback
