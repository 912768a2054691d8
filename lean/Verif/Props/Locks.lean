import Verif.Lemmas.Locks
import Mathlib.Tactic.ByContra

/-!
**C84**: no deadlock between the mutexes of the library.
-/

namespace Verif.Locks
open Verif

/-- Among threads that wait only for each other, ranks would grow for ever. -/
theorem no_deadlock_of_grow {s : St} {S : List Nat} (w : Nat → Nat) (hne : S ≠ []) (hg : ∀ t ∈ S, ∃ u ∈ S, w t < w u) : False := by
  have hb : ∀ l : List Nat, ∃ B, ∀ t ∈ l, w t ≤ B := by
    intro l
    induction l with
    | nil => exact ⟨0, by simp⟩
    | cons a l ih =>
      obtain ⟨B, hB⟩ := ih
      refine ⟨max (w a) B, fun t ht => ?_⟩
      rcases List.mem_cons.mp ht with rfl | ht
      · omega
      · have := hB t ht; omega
  obtain ⟨B, hB⟩ := hb S
  have hu : ∀ n, ∃ t ∈ S, n ≤ w t := by
    intro n
    induction n with
    | zero =>
      cases S with
      | nil => exact absurd rfl hne
      | cons a l => exact ⟨a, List.mem_cons_self .., Nat.zero_le _⟩
    | succ n ih =>
      obtain ⟨t, ht, hn⟩ := ih
      obtain ⟨u, hu, hlt⟩ := hg t ht
      exact ⟨u, hu, by omega⟩
  obtain ⟨t, ht, hn⟩ := hu (B + 1)
  have := hB t ht
  omega

/-- **C84**: if code that runs while its thread holds mutexes of the library only calls functions that lock later mutexes, for some order of the mutexes (and worker
threads) in which those of emitters come before those of containers, then there is never a deadlock, whatever the threads do, throw, start, stop or register.
Missing: that order is not kept by the library for queues and by programs that use it naturally, see the findings below. -/
theorem C84_no_deadlock_partial {rank : Mx → Nat} (ho : ∀ e c, rank (.emitter e) < rank (.subscriptions c)) {s : St} (h : Reach (InOrder rank) s)
    (S : List Nat) : ¬ Deadlock s S := by
  rintro ⟨hne, hd⟩
  refine no_deadlock_of_grow (s := s) (fun t => match s.stack t with | (.acq m :: _) :: _ => rank m | _ => 0) hne fun t ht => ?_
  obtain ⟨m, u, ⟨r, st, e, _⟩, hu, huS⟩ := hd t ht
  obtain ⟨m', _, ⟨r', st', e', _⟩, _⟩ := hd u huS
  refine ⟨u, huS, ?_⟩
  simp only [e, e']
  exact (h.oinv ho).blocked h.hinv e' hu

/-- Worker threads first, then mutexes; those of emitters before those of containers. -/
def plainRank : Mx → Nat
  | .life _ => 0
  | .subscriptions _ => 2
  | _ => 1

theorem locks_code_mutex {f : Fn} (hf : ∀ w, f ≠ .join w) : ∀ m ∈ locks (code f), m.isMutex = true := by
  have hu : ∀ {m c}, m.isMutex = true → (∀ x ∈ locks c, x.isMutex = true) → ∀ x ∈ locks (under m c), x.isMutex = true := by
    intro m c hm hc x hx
    simp only [under, locks, locks_append, List.append_nil, List.mem_cons] at hx
    rcases hx with rfl | hx
    · exact hm
    · exact hc x hx
  have ha : ∀ {a b}, (∀ x ∈ locks a, x.isMutex = true) → (∀ x ∈ locks b, x.isMutex = true) → ∀ x ∈ locks (a ++ b), x.isMutex = true := by
    intro a b h1 h2 x hx
    rw [locks_append, List.mem_append] at hx
    exact hx.elim (h1 x) (h2 x)
  have hn : ∀ {c}, locks c = [] → ∀ x ∈ locks c, x.isMutex = true := by intro c h x hx; rw [h] at hx; cases hx
  have hat : ∀ c, ∀ m ∈ locks (attachTo c), m.isMutex = true := by intro c; cases c <;> first | exact hn rfl | exact hu rfl (hn rfl)
  have hde : ∀ c, ∀ m ∈ locks (detachFrom c), m.isMutex = true := by intro c; cases c <;> first | exact hn rfl | exact hu rfl (hn rfl)
  have hd : ∀ e c n, ∀ m ∈ locks (detaches e c n), m.isMutex = true := by
    intro e c n
    induction n with
    | zero => exact hn rfl
    | succ n ih => exact ha (hde c) ih
  have he : ∀ e os, ∀ m ∈ locks (emitCalls e os), m.isMutex = true := by
    intro e os
    induction os with
    | nil => exact hn rfl
    | cons o os ih =>
      cases o
      · exact ih
      · exact ha (hu rfl (hn rfl)) ih
  have hw : ∀ x c, x.isMutex = true → locks c = [] → ∀ n, ∀ m ∈ locks (waits x c n), m.isMutex = true := by
    intro x c hx hc n
    induction n with
    | zero => exact hn rfl
    | succ n ih =>
      refine ha (ha (hn hc) ?_) ih
      intro m hm
      simp [locks] at hm; subst hm; exact hx
  cases f with
  | join w => exact absurd rfl (hf w)
  | on e c => exact hu rfl (ha (ha (hn rfl) (hat c)) (hn rfl))
  | removeListener e c => exact hu rfl (ha (ha (hn rfl) (hde c)) (hn rfl))
  | emit e os => exact ha (ha (ha (hn rfl) (hu rfl (hn rfl))) (he e os)) (hn rfl)
  | discard e => exact ha (ha (hn rfl) (hu rfl (hn rfl))) (hn rfl)
  | removeAll e c n => exact ha (hd e c n) (hn rfl)
  | emitUnsafe n => exact hn (locks_users _ n)
  | qPush q n => exact hu rfl (ha (hw _ _ rfl rfl n) (hn rfl))
  | qPop q n => exact hu rfl (ha (hw _ _ rfl rfl n) (hn rfl))
  | waitFor q n => exact hu rfl (hw _ _ rfl rfl n)
  | qTryPush q n => exact hu rfl (hn (by simp [locks_append, locks_users, locks]))
  | qCopy q n => exact hu rfl (hn (by simp [locks_append, locks_users, locks]))
  | qSwap a b =>
    by_cases h : a = b
    · simp [code, h, locks]
    · simpa [code, h] using hu (m := .queue a) rfl (hu (m := .queue b) (c := [wr (.items a), wr (.items b)]) rfl (hn rfl))
  | qAssign a b =>
    by_cases h : a = b
    · simp [code, h, locks]
    · simpa [code, h] using hu (m := .queue a) rfl (hu (m := .queue b) (c := [rd (.items b), .user .value, wr (.items a), .user .value]) rfl (hn rfl))
  | reply h n f => exact hu rfl (hn (locks_onReply h n f))
  | replyEarly h n f => exact hn (locks_onReply h n f)
  | execute p f => cases f <;> exact hu rfl (hn rfl)
  | zenvLoad n ok => cases ok <;> exact hn rfl
  | zenvPoll n a => cases a <;> exact hn rfl
  | _ => first | exact hu rfl (hn rfl) | exact hn rfl

theorem Plain.inOrder {s : St} {t : Nat} {f : Fn} (h : Plain s t f) : InOrder plainRank s t f := by
  refine ⟨fun x hx m hm => ?_, fun a b e => e.elim (fun e => absurd e (h.2.1 a b).1) (fun e => absurd e (h.2.1 a b).2)⟩
  by_cases hj : ∃ w, f = .join w
  · obtain ⟨w, rfl⟩ := hj
    exact absurd hx (h.2.2 w rfl x)
  · have h1 := locks_code_mutex (fun w e => hj ⟨w, e⟩) m hm
    have h2 := h.1 x hx
    cases x <;> simp [Mx.isMutex] at h2
    cases m <;> simp [Mx.isMutex] at h1 <;> simp [plainRank]

theorem Reach.mono {P Q : St → Nat → Fn → Prop} (hpq : ∀ s t f, P s t f → Q s t f) {s : St} (h : Reach P s) : Reach Q s := by
  induction h with
  | init => exact .init
  | step a _ hp hs ih => exact .step a ih (fun t f e => hpq _ _ _ (hp t f e)) hs

/-- **C84**: a program that calls the library only while its thread holds none of the library's mutexes, does not exchange or assign queues, and does not stop pollers,
loops or tasks from listeners and tasks that worker threads run, never deadlocks.
Missing: see `C84_no_deadlock_partial`. -/
theorem C84_no_deadlock_plain_partial {s : St} (h : Reach Plain s) (S : List Nat) : ¬ Deadlock s S :=
  C84_no_deadlock_partial (rank := plainRank) (fun _ _ => by simp [plainRank])
    (h.mono fun _ _ _ hp => hp.inOrder) S

/-- What a thread holds, its calls still have to unlock. -/
theorem Reach.inside_of_holds {P : St → Nat → Fn → Prop} {s : St} (h : Reach P s) {t : Nat} {m : Mx} (hm : Holds s t m) : Inside s t := by
  intro e
  have := (h.hinv.own t m).mp hm
  rw [e] at this
  simp [flat] at this

/-- A thread that can do nothing on its own waits for a mutex. -/
theorem stuck {s : St} {t : Nat} (hi : Inside s t) (hn : ∀ s', step s (.ret t) ≠ some s') (hn' : ∀ s', step s (.step t) ≠ some s') : ∃ m, Blocked s t m := by
  cases e : s.stack t with
  | nil => exact absurd e hi
  | cons fr st =>
    cases fr with
    | nil => exact absurd (show step s (.step t) = some { s with stack := upd s.stack t st } by simp only [step, e]) (hn' _)
    | cons i r =>
      cases i with
      | acq m =>
        by_cases ho : s.owner m = none
        · exact absurd (show step s (.step t) = some ⟨upd s.stack t (r :: st), upd s.owner m (some t)⟩ by simp only [step, e, ho, if_true]) (hn' _)
        · exact ⟨m, r, st, e, ho⟩
      | rel m => exact absurd (show step s (.step t) = some ⟨upd s.stack t (r :: st), upd s.owner m none⟩ by simp only [step, e]) (hn' _)
      | user k => exact absurd (show step s (.ret t) = some { s with stack := upd s.stack t (r :: st) } by simp only [step, e]) (hn _)
      | acc x w => exact absurd (show step s (.step t) = some { s with stack := upd s.stack t (r :: st) } by simp only [step, e]) (hn' _)
      | wait => exact absurd (show step s (.step t) = some { s with stack := upd s.stack t (r :: st) } by simp only [step, e]) (hn' _)

/-- **C84**: … so as long as some thread is inside the library, one of them can go on without any new call.
Missing: see `C84_no_deadlock_partial`. -/
theorem C84_progress_partial {rank : Mx → Nat} (ho : ∀ e c, rank (.emitter e) < rank (.subscriptions c)) {s : St} (h : Reach (InOrder rank) s) {t : Nat}
    (ht : Inside s t) : ∃ u s', Inside s u ∧ (step s (.ret u) = some s' ∨ step s (.step u) = some s') := by
  by_contra hno
  have hb : ∀ u, Inside s u → ∃ m, Blocked s u m := fun u hu =>
    stuck hu (fun s' hs => hno ⟨u, s', hu, Or.inl hs⟩) (fun s' hs => hno ⟨u, s', hu, Or.inr hs⟩)
  obtain ⟨L, hL⟩ := h.finite
  classical
  refine C84_no_deadlock_partial ho h (L.filter (fun u => decide (Inside s u))) ⟨?_, fun u hu => ?_⟩
  · exact List.ne_nil_of_mem (a := t) (List.mem_filter.mpr ⟨hL t ht, by simpa using ht⟩)
  · have hi : Inside s u := by simpa using (List.mem_filter.mp hu).2
    obtain ⟨m, hm⟩ := hb u hi
    obtain ⟨r, st, e, hne⟩ := hm
    obtain ⟨v, hv⟩ := Option.ne_none_iff_exists'.mp hne
    have hv' : Inside s v := h.inside_of_holds hv
    exact ⟨m, v, ⟨r, st, e, hne⟩, hv, List.mem_filter.mpr ⟨hL v hv', by simpa using hv'⟩⟩

/-- **C84**: when a thread has left all functions of the library, it holds none of its mutexes, even if they were left by exceptions; in every program. -/
theorem C84_nothing_kept {s : St} (h : Reach Anything s) {t : Nat} (ht : ¬ Inside s t) (m : Mx) : ¬ Holds s t m :=
  fun hm => ht (h.inside_of_holds hm)

theorem pend_of_listeners {P : St → Nat → Fn → Prop} {s : St} (h : Reach P s) {t : Nat} {st : List (List I)} (hsub : ∀ fr ∈ st, fr ∈ s.stack t)
    (ho : OnlyListeners st) : ∀ m ∈ flat st, m.isMutex = false := by
  intro m hm
  obtain ⟨fr, hfr, hm⟩ := List.mem_flatMap.mp hm
  obtain ⟨k, r, rfl, hk⟩ := ho fr hfr
  have hb := h.bare t _ (hsub _ hfr)
  rcases hk with rfl | rfl
  · simp only [pend] at hm
    rw [hb.1] at hm; cases hm
  · exact hb.1 m hm

/-- **C84**: a listener called by an event emitter runs without any mutex of the library held by its thread, in every program, also on worker threads; the same for
listeners called by listeners that publish.  So listeners of emitters may call every function of the library. -/
theorem C84_listeners_run_unlocked {s : St} (h : Reach Anything s) {t : Nat} (hl : OnlyListeners (s.stack t)) (m : Mx) (hm : m.isMutex = true) : ¬ Holds s t m := by
  intro hh
  have := pend_of_listeners h (fun _ hfr => hfr) hl m ((h.hinv.own t m).mp hh)
  rw [hm] at this; cases this

/-- **C84**: a thread that waits for space or for an item in a queue, or for events in a ring, and was not called from under a lock, holds no mutex. -/
theorem C84_waiting_unlocked {s : St} (h : Reach Anything s) {t : Nat} {r : List I} {st : List (List I)} (e : s.stack t = (.wait :: r) :: st)
    (hl : OnlyListeners st) (m : Mx) (hm : m.isMutex = true) : ¬ Holds s t m := by
  intro hh
  have hm' := (h.hinv.own t m).mp hh
  have hb := h.bare t (.wait :: r) (by rw [e]; exact List.mem_cons_self ..)
  rw [e] at hm'
  simp only [flat, List.flatMap_cons, pend, List.mem_append] at hm'
  rw [hb.1] at hm'
  rcases hm' with hm' | hm'
  · cases hm'
  · have := pend_of_listeners h (t := t) (fun fr hfr => by rw [e]; exact List.mem_cons_of_mem _ hfr) hl m hm'
    rw [hm] at this; cases this

/-- **C84**: a deadlock is for ever: whatever the other threads do, these threads wait. -/
theorem C84_deadlock_stays {P : St → Nat → Fn → Prop} {s s' : St} (h : Reach P s) {S : List Nat} (hd : Deadlock s S) {a : Act} (hs : step s a = some s') :
    Deadlock s' S ∧ ∀ t ∈ S, s'.stack t = s.stack t := by
  have hnot : a.thread ∉ S := by
    intro hS
    obtain ⟨m, u, ⟨r, st, e, ho⟩, _⟩ := hd.2 _ hS
    cases a <;> simp only [Act.thread] at e <;> simp only [step, e] at hs
    · simp at hs
    · cases hs
    · cases hs
    · cases hs
    · rw [if_neg ho] at hs; cases hs
  have hstack : ∀ t ∈ S, s'.stack t = s.stack t := by
    intro t ht
    have hne : t ≠ a.thread := fun e => hnot (e ▸ ht)
    cases a <;> simp only [Act.thread] at hne <;> simp only [step] at hs <;> (repeat' split at hs) <;> cases hs <;> simp [hne]
  have hown : ∀ u ∈ S, ∀ m, s.owner m = some u → s'.owner m = some u := by
    intro u hu m hm
    have hne : u ≠ a.thread := fun e => hnot (e ▸ hu)
    cases a with
    | step t =>
      simp only [Act.thread] at hne
      simp only [step] at hs
      split at hs
      · cases hs; exact hm
      · rename_i m' r st e
        split at hs <;> cases hs
        rename_i hfree
        have : m ≠ m' := by rintro rfl; rw [hm] at hfree; cases hfree
        simp [this, hm]
      · rename_i m' r st e
        cases hs
        have : m ≠ m' := by
          rintro rfl
          have := (h.hinv.own t m).mpr (by rw [e]; simp [flat, pend])
          rw [hm] at this
          exact hne (Option.some.inj this)
        simp [this, hm]
      · cases hs; exact hm
      · cases hs; exact hm
      · cases hs
    | spawn w n =>
      simp only [step] at hs
      split at hs <;> cases hs
      rename_i hfree
      have : m ≠ .life w := by rintro rfl; rw [hm] at hfree; cases hfree.2
      simp [this, hm]
    | _ => simp only [step] at hs <;> split at hs <;> cases hs <;> exact hm
  refine ⟨⟨hd.1, fun t ht => ?_⟩, hstack⟩
  obtain ⟨m, u, ⟨r, st, e, _⟩, hu, huS⟩ := hd.2 t ht
  have := hown u huS m hu
  exact ⟨m, u, ⟨r, st, by rw [hstack t ht]; exact e, by rw [this]; simp⟩, this, huS⟩

/-! ### findings -/

theorem Reach.of_run {s : St} : ∀ {as : List Act} {s0 : St}, Reach Anything s0 → run s0 as = some s → Reach Anything s
  | [], _, h, e => by cases e; exact h
  | a :: as, s0, h, e => by
    simp only [run] at e
    split at e
    · cases e
    · rename_i s1 hs; exact Reach.of_run (.step a h (fun _ _ _ => trivial) hs) e

/-- How a finite run ends for the threads below `n`: who is blocked on what, held by whom. -/
def blockedAt (n : Nat) (s : St) : List (Option (Mx × Nat)) :=
  (List.range n).map fun t => match s.stack t with
    | (.acq m :: _) :: _ => (s.owner m).map fun u => (m, u)
    | _ => none

theorem deadlock_of_blockedAt {s : St} {n : Nat} {S : List Nat} (hne : S ≠ [])
    (h : ∀ t ∈ S, t < n ∧ ∃ m u, (blockedAt n s)[t]? = some (some (m, u)) ∧ u ∈ S) : Deadlock s S := by
  refine ⟨hne, fun t ht => ?_⟩
  obtain ⟨hlt, m, u, hb, hu⟩ := h t ht
  simp only [blockedAt, List.getElem?_map, List.getElem?_range hlt, Option.map_some, Option.some.injEq] at hb
  split at hb
  · rename_i m' r st e
    obtain ⟨u', hu', hp⟩ := Option.map_eq_some_iff.mp hb
    cases hp
    exact ⟨m, u, ⟨r, st, e, by rw [hu']; simp⟩, hu', hu⟩
  · cases hb

theorem violation {as : List Act} {n : Nat} {S : List Nat} (hne : S ≠ []) {l : List (Option (Mx × Nat))} (hr : (run St.init as).map (blockedAt n) = some l)
    (h : ∀ t ∈ S, t < n ∧ ∃ m u, l[t]? = some (some (m, u)) ∧ u ∈ S) : ∃ s, Reach Anything s ∧ Deadlock s S := by
  obtain ⟨s, hs, rfl⟩ := Option.map_eq_some_iff.mp hr
  exact ⟨s, Reach.of_run .init hs, deadlock_of_blockedAt hne h⟩

/-- Finding against **C84**: `a.swap(b)` and `b.swap(a)`, or two assignments, in two threads. -/
theorem C84_violation_swap : ∃ s, Reach Anything s ∧ Deadlock s [0, 1] :=
  violation (as := [.call 0 (.qSwap 1 2), .call 1 (.qSwap 2 1), .step 0, .step 1]) (n := 2) (by simp)
    (l := [some (.queue 2, 1), some (.queue 1, 0)]) (by decide +kernel)
    (by simp only [List.mem_cons, List.not_mem_nil, or_false]; rintro t (rfl | rfl) <;> exact ⟨by omega, _, _, rfl, by simp⟩)

/-- Finding against **C84**: one thread: a request to a `MultiThreadCallbackHandler` whose publisher delivers at once, and a server that replies at once. -/
theorem C84_violation_synchronous_reply : ∃ s, Reach Anything s ∧ Deadlock s [0] :=
  violation (as := [.call 0 (.request 1), .step 0, .ret 0, .step 0, .call 0 (.emit 2 [false]), .step 0, .step 0, .step 0, .step 0, .call 0 (.emit 3 [false]), .step 0, .step 0, .step 0, .step 0,
    .call 0 (.reply 1 0 true)]) (n := 1) (by simp) (l := [some (.handler 1, 0)]) (by decide +kernel) (by simp)

/-- Finding against **C84**: the function of a topic of a ZMQ poller unregisters itself (or registers another). -/
theorem C84_violation_poller_function : ∃ s, Reach Anything s ∧ Deadlock s [0] :=
  violation (as := [.call 0 (.execute 1 true), .step 0, .step 0, .call 0 (.unregister 1)]) (n := 1) (by simp) (l := [some (.poller 1, 0)]) (by decide +kernel) (by simp)

/-- Finding against **C84**: a listener that is removed captures an object whose destructor uses the emitter, for example to remove another listener. -/
theorem C84_violation_captured_destructor : ∃ s, Reach Anything s ∧ Deadlock s [0] :=
  violation (as := [.call 0 (.removeListener 1 none), .step 0, .step 0, .step 0, .call 0 (.removeListener 1 none)]) (n := 1) (by simp) (l := [some (.emitter 1, 0)])
    (by decide +kernel) (by simp)

/-- Finding against **C84**: two threads, each in a callback of one `MultiThreadCallbackHandler` that makes a request to the other. -/
theorem C84_violation_two_handlers : ∃ s, Reach Anything s ∧ Deadlock s [0, 1] :=
  violation (as := [.call 0 (.reply 1 0 true), .step 0, .step 0, .ret 0, .call 1 (.reply 2 0 true), .step 1, .step 1, .ret 1, .call 0 (.request 2), .call 1 (.request 1)]) (n := 2) (by simp)
    (l := [some (.handler 2, 1), some (.handler 1, 0)]) (by decide +kernel)
    (by simp only [List.mem_cons, List.not_mem_nil, or_false]; rintro t (rfl | rfl) <;> exact ⟨by omega, _, _, rfl, by simp⟩)

/-- Finding against **C84**: listeners of two pollers (or event loops) stop the other poller. -/
theorem C84_violation_stop_each_other : ∃ s, Reach Anything s ∧ Deadlock s [1, 2] :=
  violation (as := [.spawn 1 1, .spawn 2 1, .call 1 (.emit 5 [false]), .step 1, .step 1, .step 1, .step 1, .call 2 (.emit 6 [false]), .step 2, .step 2, .step 2, .step 2,
    .call 1 (.join 2), .call 2 (.join 1)])
    (n := 3) (by simp) (l := [none, some (.life 2, 2), some (.life 1, 1)]) (by decide +kernel)
    (by simp only [List.mem_cons, List.not_mem_nil, or_false]; rintro t (rfl | rfl) <;> exact ⟨by omega, _, _, rfl, by simp⟩)

/-- Finding against **C84**: the callback of a reply of a `MultiThreadCallbackHandler` stops a poller whose listener makes a request to that handler. -/
theorem C84_violation_stop_in_callback : ∃ s, Reach Anything s ∧ Deadlock s [0, 1] :=
  violation (as := [.spawn 1 1, .call 0 (.reply 3 0 true), .step 0, .step 0, .ret 0, .call 1 (.emit 5 [false]), .step 1, .step 1, .step 1, .step 1, .call 1 (.request 3), .call 0 (.join 1)])
    (n := 2) (by simp) (l := [some (.life 1, 1), some (.handler 3, 0)]) (by decide +kernel)
    (by simp only [List.mem_cons, List.not_mem_nil, or_false]; rintro t (rfl | rfl) <;> exact ⟨by omega, _, _, rfl, by simp⟩)

/-- Finding against **C84**: a request of a `MultiThreadCallbackHandler` waits for space in the queue of its publisher and keeps the handler's mutex meanwhile, so
that the thread that delivers replies waits for it too (and if the server waits for space in the queue of replies, nobody goes on). -/
theorem C84_violation_waits_with_lock : ∃ s, Reach Anything s ∧ Holds s 0 (.handler 1) ∧ Blocked s 1 (.handler 1) ∧ ∃ r st, s.stack 0 = (.wait :: r) :: st := by
  have hr : (run St.init [.call 0 (.request 1), .step 0, .ret 0, .step 0, .call 0 (.qPush 2 1), .step 0, .step 0, .step 0, .step 0, .call 1 (.reply 1 0 true)]).map
      (fun s => (s.owner (.handler 1), s.stack 0, s.stack 1)) =
      some (some 0, [[.wait, .acq (.queue 2), rd (.items 2), rd (.bound 2), .user .value, wr (.items 2), .rel (.queue 2)], [.user .publish, .rel (.handler 1)]], [code (.reply 1 0 true)]) := by decide +kernel
  obtain ⟨s, hs, he⟩ := Option.map_eq_some_iff.mp hr
  simp only [Prod.mk.injEq] at he
  exact ⟨s, Reach.of_run .init hs, he.1, ⟨_, _, he.2.2, by rw [he.1]; simp⟩, _, _, he.2.1⟩

/-! ### concrete programs -/

/-- Does an action respect the order? -/
def okIn (rank : Mx → Nat) (s : St) : Act → Bool
  | .call t f => (flat (s.stack t)).all (fun h => (locks (code f)).all fun m => decide (rank h < rank m)) &&
      (match f with | .qSwap a b | .qAssign a b => decide (rank (.queue a) < rank (.queue b)) | _ => true)
  | _ => true

/-- A run in which every call is checked against an order. -/
def runIn (rank : Mx → Nat) (s : St) : List Act → Option St
  | [] => some s
  | a :: as => if okIn rank s a then (step s a).bind fun s' => runIn rank s' as else none

theorem Reach.of_runIn {rank : Mx → Nat} {s : St} : ∀ {as : List Act} {s0 : St}, Reach (InOrder rank) s0 → runIn rank s0 as = some s → Reach (InOrder rank) s
  | [], _, h, e => by cases e; exact h
  | a :: as, s0, h, e => by
    simp only [runIn] at e
    split at e
    · rename_i hok
      obtain ⟨s1, hs, e⟩ := Option.bind_eq_some_iff.mp e
      refine Reach.of_runIn (.step a h (fun t f ha => ?_) hs) e
      subst ha
      simp only [okIn, Bool.and_eq_true, List.all_eq_true, decide_eq_true_eq] at hok
      refine ⟨fun x hx m hm => hok.1 x ((h.hinv.own t x).mp hx) m hm, fun a b he _ => ?_⟩
      rcases he with rfl | rfl <;> simpa using hok.2
    · cases e

/-- An order: workers, pollers, handlers, emitters, containers and everything else. -/
def exRank : Mx → Nat
  | .life _ => 0
  | .poller _ => 1
  | .handler _ => 2
  | .emitter _ => 3
  | .queue q => 4 + q
  | _ => 4

set_option synthInstance.maxSize 4000 in
/-- **C84** in a concrete case: thread 0 is in a listener, called by an emission under the lock of a callback handler, and pushes to a queue; thread 1 registers a listener
with a container; thread 2 exchanges two queues; all three are inside the library, two of them wait for a mutex, and the order above is respected. -/
theorem C84_example : ∃ s, Reach (InOrder exRank) s ∧ (∀ e c, exRank (.emitter e) < exRank (.subscriptions c)) ∧ Inside s 0 ∧
    Blocked s 1 (.subscriptions 7) ∧ Holds s 1 (.emitter 4) ∧ Blocked s 2 (.queue 5) ∧ Holds s 2 (.queue 1) ∧ Holds s 0 (.handler 9) ∧ Holds s 0 (.queue 5) := by
  have hr : (runIn exRank St.init [.call 0 (.request 9), .step 0, .ret 0, .step 0, .call 0 (.emit 3 [true]), .step 0, .step 0, .step 0, .step 0, .call 0 (.qPush 5 1), .step 0, .step 0,
      .step 0, .step 0, .step 0, .step 0, .call 3 (.attachSubscription 7), .step 3, .call 1 (.on 4 (some 7)), .step 1, .step 1, .call 2 (.qSwap 1 5), .step 2]).map
      (fun s => (s.stack 1, s.stack 2, s.owner (.subscriptions 7), s.owner (.emitter 4), s.owner (.queue 5), s.owner (.queue 1), s.owner (.handler 9), (s.stack 0).length)) =
      some ([[.acq (.subscriptions 7), wr (.subscriptions 7), .rel (.subscriptions 7), .user .value, wr (.listeners 4), .rel (.emitter 4)]],
        [[.acq (.queue 5), wr (.items 1), wr (.items 5), .rel (.queue 5), .rel (.queue 1)]], some 3, some 1, some 0, some 2, some 0, 3) := by decide +kernel
  obtain ⟨s, hs, he⟩ := Option.map_eq_some_iff.mp hr
  simp only [Prod.mk.injEq] at he
  obtain ⟨h1, h2, h3, h4, h5, h6, h7, h8⟩ := he
  refine ⟨s, Reach.of_runIn .init hs, fun _ _ => by simp [exRank], ?_, ⟨_, _, h1, by rw [h3]; simp⟩, h4, ⟨_, _, h2, by rw [h5]; simp⟩, h6, h7, h5⟩
  intro e; rw [e] at h8; cases h8

/-- **C84** in a concrete case: on a worker thread a listener publishes on another emitter, whose listener waits for space in a queue: nothing is held. -/
theorem C84_example_listeners : ∃ s, Reach Anything s ∧ (∃ r st, s.stack 0 = (.wait :: r) :: st ∧ OnlyListeners st ∧ st.length = 3) ∧ ∀ m, m.isMutex = true → ¬ Holds s 0 m := by
  have hr : (run St.init [.spawn 0 2, .call 0 (.emit 1 [true, false]), .step 0, .step 0, .step 0, .step 0, .call 0 (.emit 2 [false]), .step 0, .step 0, .step 0, .step 0,
      .call 0 (.qPop 3 2), .step 0, .step 0, .step 0]).map
      (fun s => s.stack 0) = some [[.wait, .acq (.queue 3), rd (.items 3), .rel (.queue 3), .wait, .acq (.queue 3), rd (.items 3), .user .value, wr (.items 3), .rel (.queue 3)],
        [.user .listener, .user .value],
        [.user .listener, .acq (.emitter 1), rd (.listeners 1), wr (.listeners 1), .user .value, .rel (.emitter 1), .user .listener, .user .value],
        [.user .worker, .user .worker, .rel (.life 0)]] := by decide +kernel
  obtain ⟨s, hs, he⟩ := Option.map_eq_some_iff.mp hr
  have hreach := Reach.of_run .init hs
  have hl : OnlyListeners [[I.user .listener, .user .value], [.user .listener, .acq (.emitter 1), rd (.listeners 1), wr (.listeners 1), .user .value,
      .rel (.emitter 1), .user .listener, .user .value], [.user .worker, .user .worker, .rel (.life 0)]] := by
    intro fr hfr
    simp only [List.mem_cons, List.not_mem_nil, or_false] at hfr
    rcases hfr with rfl | rfl | rfl
    · exact ⟨_, _, rfl, Or.inl rfl⟩
    · exact ⟨_, _, rfl, Or.inl rfl⟩
    · exact ⟨_, _, rfl, Or.inr rfl⟩
  exact ⟨s, hreach, ⟨_, _, he, hl, rfl⟩, fun m hm => C84_waiting_unlocked hreach he hl m hm⟩

/-- Is an action plain? -/
def okPlain (s : St) : Act → Bool
  | .call t f => (flat (s.stack t)).all (fun h => !h.isMutex) && (match f with | .qSwap _ _ | .qAssign _ _ => false | .join _ => (flat (s.stack t)).isEmpty | _ => true)
  | _ => true

/-- A run in which every call is checked to be plain. -/
def runPlain (s : St) : List Act → Option St
  | [] => some s
  | a :: as => if okPlain s a then (step s a).bind fun s' => runPlain s' as else none

theorem Reach.of_runPlain {s : St} : ∀ {as : List Act} {s0 : St}, Reach Plain s0 → runPlain s0 as = some s → Reach Plain s
  | [], _, h, e => by cases e; exact h
  | a :: as, s0, h, e => by
    simp only [runPlain] at e
    obtain ⟨hok, e⟩ := Option.ite_none_right_eq_some.mp e
    obtain ⟨s1, hs, e⟩ := Option.bind_eq_some_iff.mp e
    refine Reach.of_runPlain (.step a h (fun t f ha => ?_) hs) e
    subst ha
    simp only [okPlain, Bool.and_eq_true, List.all_eq_true, Bool.not_eq_true'] at hok
    refine ⟨fun x hx => hok.1 x ((h.hinv.own t x).mp hx), fun a b => ⟨fun he => ?_, fun he => ?_⟩, fun w he x hx => ?_⟩
    · subst he; simp at hok
    · subst he; simp at hok
    · subst he
      have h1 := (h.hinv.own t x).mp hx
      have h2 := hok.2
      simp only [List.isEmpty_iff] at h2
      rw [h2] at h1; cases h1

set_option synthInstance.maxSize 4000 in
/-- **C84** in a concrete case: the main thread waits for the end of a worker, whose listener registers another listener and waits for the emitter's mutex, which a third
thread holds, that waits for the container's mutex, which a fourth thread holds. -/
theorem C84_example_plain : ∃ s, Reach Plain s ∧ Blocked s 0 (.life 1) ∧ Blocked s 1 (.emitter 4) ∧ Blocked s 2 (.subscriptions 7) ∧ Holds s 2 (.emitter 4) ∧
    Holds s 3 (.subscriptions 7) := by
  have hr : (runPlain St.init [.spawn 1 3, .call 1 (.emit 4 [false]), .step 1, .step 1, .step 1, .step 1, .call 2 (.on 4 (some 7)), .step 2, .step 2, .call 1 (.on 4 none),
      .call 0 (.join 1), .call 3 (.attachSubscription 7), .step 3]).map
      (fun s => (s.stack 0, (s.stack 1).head?, s.stack 2, s.owner (.life 1), s.owner (.emitter 4), s.owner (.subscriptions 7))) =
      some ([[.acq (.life 1), .rel (.life 1)]], some [.acq (.emitter 4), wr (.lastId 4), .user .value, wr (.listeners 4), .rel (.emitter 4)],
        [[.acq (.subscriptions 7), wr (.subscriptions 7), .rel (.subscriptions 7), .user .value, wr (.listeners 4), .rel (.emitter 4)]], some 1, some 2, some 3) := by decide +kernel
  obtain ⟨s, hs, he⟩ := Option.map_eq_some_iff.mp hr
  simp only [Prod.mk.injEq] at he
  obtain ⟨h1, h2, h3, h4, h5, h6⟩ := he
  obtain ⟨st, hst⟩ : ∃ st, s.stack 1 = [.acq (.emitter 4), wr (.lastId 4), .user .value, wr (.listeners 4), .rel (.emitter 4)] :: st := by
    cases e : s.stack 1 with
    | nil => rw [e] at h2; cases h2
    | cons a l => rw [e] at h2; exact ⟨l, by rw [Option.some.inj h2]⟩
  exact ⟨s, Reach.of_runPlain .init hs, ⟨_, _, h1, by rw [h4]; simp⟩, ⟨_, _, hst, by rw [h5]; simp⟩, ⟨_, _, h3, by rw [h6]; simp⟩, h5, h6⟩

end Verif.Locks
