import Verif.Lemmas.RefPathChan

/-!
Property theorems C78: pooled events on the step-by-step models of the middleware.  `Reach c P s`: state `s` can be reached by any interleaving of
`c.threads` threads of a publisher with a pool, publishers of other topics on the same middleware, the steps of the middleware (Model/EventLoop.lean,
Model/MemPoller.lean, Model/CqPoller.lean), and listeners that keep at most `c.maxKept` events; the steps of the middleware satisfy `P`.
The state of the middleware in `s` is a state of the model of the middleware, so the theorems about delivery (C13, C30, C44, C72, C75, C77) speak about the same
executions.
-/

namespace Verif.RefP
open Verif Verif.Pool

variable {T : Type} {C : Chan Tag}

/-- Every middleware into which events get only as arguments of `publish` keeps the promises of the pool. -/
theorem sound_of_inv {c : Cfg T} {R : C.S → Prop} {s : St T C} (hi : Inv c R s) : Sound c s := by
  constructor
  · intro k v hr
    obtain ⟨x, hx, hx2⟩ := Option.map_eq_some_iff.mp (hi.vreads _ hr)
    obtain ⟨d, hd⟩ := hi.pubs x (List.mem_of_getElem? hx)
    simp only at hx2
    subst hx2
    refine ⟨x.1, hx, d, ?_⟩
    rw [hd]
    cases x.1 with
    | publish e => simp only [value, Pool.Cfg.clone]; cases c.pub.cloner <;> rfl
    | process f => simp only [value, Pool.Cfg.initFun]; cases c.pub.initF <;> rfl
  · intro o k hk
    have h1 : valOf s k = some (s.content o) := by
      rcases List.mem_append.mp hk with hk | hk
      · exact hi.vheld _ hk
      · exact hi.vkept _ hk
    obtain ⟨x, hx, hx2⟩ := Option.map_eq_some_iff.mp h1
    exact ⟨x.1, by rw [hx, ← hx2]⟩
  · intro t o call ht hg
    obtain ⟨a, b, d⟩ := hi.got t o call ht hg
    refine ⟨fun p hp hm => ?_, fun x hx e => ?_, d⟩
    · have := ((hi.pool.some p hp).2.2.2.2.2.2 o).mp hm
      exact this.2 (mem_refs.mpr (.inr (.inl ⟨t, ht, by rw [hg]; rfl⟩)))
    · subst e
      rcases List.mem_append.mp hx with hx | hx
      · exact a x.2 hx
      · exact b x.2 hx
  · intro p hp
    obtain ⟨h1, h2, h3, h4, h5, h6, h7⟩ := hi.pool.some p hp
    refine ⟨h4, h3, fun o ho => ?_⟩
    rw [h7 o]
    constructor
    · rintro ⟨_, h0⟩
      refine ⟨fun x hx e => h0 ?_, fun t ht e => h0 ?_⟩
      · subst e
        rcases List.mem_append.mp hx with hx | hx
        · exact mem_refs.mpr (.inl ⟨x.2, hx⟩)
        · exact mem_refs.mpr (.inr (.inr ⟨x.2, hx⟩))
      · exact mem_refs.mpr (.inr (.inl ⟨t, ht, e⟩))
    · rintro ⟨ha, hb⟩
      refine ⟨ho, fun hm => ?_⟩
      rcases mem_refs.mp hm with ⟨k, hk⟩ | ⟨t, ht, e⟩ | ⟨k, hk⟩
      · exact ha (o, k) (List.mem_append_left _ hk) rfl
      · exact hb t ht e
      · exact ha (o, k) (List.mem_append_right _ hk) rfl

/-- **C78, event loop.** On an event loop with `2^k` slots: values read are values written, held events do not change, a writer has its object alone, and a pooled object is
in the pool exactly when nobody holds it.  For every interleaving, with throwing listeners, stops and restarts. -/
theorem C78_event_loop {k : Nat} (hk : k ≤ 30) {c : Cfg T} {s : St T (evLoop k)} (h : Reach c (fun _ _ => True) s) : Sound c s :=
  sound_of_inv (h.inv (ev_lawful hk))

/-- **C78, in-memory middleware.** The same for a `SafeQueue` of any bound, blocking or discarding, with waiting publishers, spurious wake-ups, throwing listeners that end
the polling thread, and restarts. -/
theorem C78_memory {d : Bool} {n : Nat} {c : Cfg T} {s : St T (memQ d n)} (h : Reach c (fun _ _ => True) s) : Sound c s :=
  sound_of_inv (h.inv (mem_lawful d n))

/-- **C78, concurrent queue.** The same for the concurrent queue, blocking or discarding, as long as no two threads enqueue with its token at the same time.
Missing: two threads at the token at the same time, which is outside what the queue supports (C63), and listeners that throw. -/
theorem C78_concurrent_queue_partial {d : Bool} {c : Cfg T} {s : St T (concQ d)} (h : Reach c TokenOk s) : Sound c s :=
  sound_of_inv (h.inv (conc_lawful d))

/-! ### Everything goes back -/

theorem all_back {c : Cfg T} {R : C.S → Prop} {s : St T C} (hi : Inv c R s) (hq : Quiet c s) (he : C.held s.ch = []) : AllBack c s := by
  intro p hp o ho
  apply ((hi.pool.some p hp).2.2.2.2.2.2 o).mpr
  refine ⟨ho, fun hm => ?_⟩
  rcases mem_refs.mp hm with ⟨k, hk⟩ | ⟨t, ht, e⟩ | ⟨k, hk⟩
  · have := mem_held.mp hk; rw [he] at this; cases this
  · rw [hq.1 t ht] at e; cases e
  · rw [hq.2] at hk; cases hk

/-- **C78, event loop.** When publishers and listeners hold nothing and the loop has found nothing more to deliver, all objects are back in the pool — if listeners do not
throw and the loop is never started on top of events it has not delivered.  Missing: without these conditions it is false, see
`C78_violation_throw_keeps_event` and `C78_violation_restart_keeps_event`. -/
theorem C78_event_loop_all_back_partial {k : Nat} (hk : k ≤ 30) {c : Cfg T} {s : St T (evLoop k)} (h : Reach c LoopCalm s) (hq : Quiet c s) {nx : Int}
    (hw : (EvLoop.St.ring s.ch).cp 0 = .wait nx) (hn : (EvLoop.St.ring s.ch).cursor < nx) : AllBack c s :=
  all_back (h.inv ((ev_lawful hk).strong fun _ _ _ => trivial)) hq (ev_empty hk h.chan hw hn)

/-- **C78, in-memory middleware.** When publishers and listeners hold nothing, the queue is empty and the polling thread has nothing in hand, all objects are back in the
pool, also after listeners have thrown. -/
theorem C78_memory_all_back {d : Bool} {n : Nat} {c : Cfg T} {s : St T (memQ d n)} (h : Reach c (fun _ _ => True) s) (hq : Quiet c s)
    (he : (MemP.St.bm s.ch).sq.q = []) (hh : (MemP.St.bm s.ch).hand = []) : AllBack c s :=
  all_back (h.inv (mem_lawful d n)) hq (by simp [memQ, he, hh])

/-- **C78, concurrent queue.** The same. -/
theorem C78_concurrent_queue_all_back {d : Bool} {c : Cfg T} {s : St T (concQ d)} (h : Reach c TokenOk s) (hq : Quiet c s)
    (he : (CqP.St.cq s.ch).q = []) (hh : (CqP.St.cq s.ch).hand = []) : AllBack c s :=
  all_back (h.inv (conc_lawful d)) hq (by simp [concQ, he, hh])

/-! ### No allocation -/

theorem pcs_length {pc : Nat → Pc T} {n t : Nat} (ht : t < n) (h : pc t = .idle) : ((List.range n).filterMap fun t => (pc t).obj).length < n := by
  have h1 : ((List.range n).filterMap fun t => (pc t).obj).length ≤ ((List.range n).erase t).length := by
    have hp : (List.range n).Perm (t :: (List.range n).erase t) := List.perm_cons_erase (List.mem_range.mpr ht)
    have h2 := (hp.filterMap fun t => (pc t).obj).length_eq
    rw [h2, List.filterMap_cons]
    simp only [h, Pc.obj]
    exact List.length_filterMap_le _ _
  rw [List.length_erase_of_mem (List.mem_range.mpr ht), List.length_range] at h1
  omega

theorem no_alloc {c : Cfg T} {R : C.S → Prop} {P : C.S → C.A → Prop} (L : Lawful C R P) {B : Nat}
    (hB : ∀ {s : St T C}, Reach c P s → (C.held s.ch).length ≤ B) (hsz : B + c.threads + c.maxKept ≤ min c.pub.poolSize 65535) (h0 : c.pub.poolSize ≠ 0)
    {s : St T C} (h : Reach c P s) : s.allocs = c.pub.poolSize := by
  induction h with
  | init => rfl
  | @step s s' a hr hP hs ih =>
    have hi := hr.inv L
    cases a with
    | acquire t call =>
      simp only [RefP.step] at hs
      split at hs
      · next ht =>
        split at hs
        · next hidle =>
          split at hs
          · next p hp =>
            cases hst : p.stack with
            | cons o r => simp only [Pool.acquire, hst] at hs; cases hs; exact ih
            | nil =>
              exfalso
              obtain ⟨h1, h2, h3, h4, h5, h6, h7⟩ := hi.pool.some p hp
              have hsub : (List.range (min c.pub.poolSize 65535)).Subperm (refs c s) := by
                apply List.Nodup.subperm List.nodup_range
                intro o ho
                apply Classical.byContradiction
                intro hn
                have := (h7 o).mpr ⟨List.mem_range.mp ho, hn⟩
                rw [hst] at this; cases this
              have hl := hsub.length_le
              have e1 : s.heldEvents.length ≤ (C.held s.ch).length := List.length_filterMap_le _ _
              have e2 := hB hr
              have e3 := pcs_length ht hidle
              have e4 := hi.len
              simp only [refs, List.length_append, List.length_map, List.length_range] at hl
              omega
          · next hp =>
            obtain ⟨p, hp'⟩ := hi.pool.ex h0
            rw [hp] at hp'; cases hp'
        · cases hs
      · cases hs
    | write t => simp only [RefP.step] at hs; (repeat' split at hs) <;> first | (cases hs; done) | (cases hs; exact ih)
    | send t a => simp only [RefP.step] at hs; (repeat' split at hs) <;> first | (cases hs; done) | (cases hs; exact ih)
    | chan a => simp only [RefP.step] at hs; (repeat' split at hs) <;> first | (cases hs; done) | (cases hs; exact ih)
    | finish t => simp only [RefP.step] at hs; (repeat' split at hs) <;> first | (cases hs; done) | (cases hs; exact ih)
    | read => simp only [RefP.step] at hs; (repeat' split at hs) <;> first | (cases hs; done) | (cases hs; exact ih)
    | keep => simp only [RefP.step] at hs; (repeat' split at hs) <;> first | (cases hs; done) | (cases hs; exact ih)
    | readKept i => simp only [RefP.step] at hs; (repeat' split at hs) <;> first | (cases hs; done) | (cases hs; exact ih)
    | dropKept i => simp only [RefP.step] at hs; (repeat' split at hs) <;> first | (cases hs; done) | (cases hs; exact ih)

/-- **C78, event loop.** A pool with as many objects as the ring has slots, one more for each publisher thread and one for each event listeners keep, is enough: no event is
ever allocated, whatever throws, stops and restarts. -/
theorem C78_event_loop_no_allocation {k : Nat} (hk : k ≤ 30) {c : Cfg T} (hsz : 2 ^ k + c.threads + c.maxKept ≤ min c.pub.poolSize 65535)
    {s : St T (evLoop k)} (h : Reach c (fun _ _ => True) s) : s.allocs = c.pub.poolSize :=
  no_alloc (B := 2 ^ k) (ev_lawful hk) (fun _ => ev_held_length k _) hsz (by have := Nat.one_le_two_pow (n := k); omega) h

/-- **C78, in-memory middleware.** The same with the bound of the queue and one object for the polling thread. -/
theorem C78_memory_no_allocation {d : Bool} {n : Nat} (hn : d = true → 0 < n) {c : Cfg T} (hsz : n + 1 + c.threads + c.maxKept ≤ min c.pub.poolSize 65535)
    {s : St T (memQ d n)} (h : Reach c (fun _ _ => True) s) : s.allocs = c.pub.poolSize := by
  refine no_alloc (B := n + 1) (mem_lawful d n) (fun {s} hr => ?_) hsz (by omega) h
  have hi := (hr.inv (mem_lawful d n)).ch
  have h1 := mem_q_le hn hi
  have h2 := hi.inv.one
  simp only [memQ, List.length_append]
  omega

/-- **C78, concurrent queue.** The same if the queue refuses events when it holds `B`. -/
theorem C78_concurrent_queue_no_allocation {d : Bool} {B : Nat} {c : Cfg T} (hsz : B + 1 + c.threads + c.maxKept ≤ min c.pub.poolSize 65535)
    {s : St T (concQ d)} (h : Reach c (TokenBound B) s) : s.allocs = c.pub.poolSize := by
  have L : Lawful (concQ d) (fun s => CqP.Reach d s) (TokenBound B) := (conc_lawful d).strong fun _ _ h => h.1
  refine no_alloc (B := B + 1) L (fun {s} hr => ?_) hsz (by omega) h
  have h1 := conc_q_le hr.chan
  have h2 := conc_hand (hr.inv L).ch
  simp only [concQ, List.length_append]
  omega

/-! ### Concrete executions -/

/-- `LoopOk` by computation: only sequences up to the cursor can have an owner. -/
def okB (s : EvLoop.St Tag) : EvLoop.Act Tag → Bool
  | .start => (List.range (s.ring.cursor + 1).toNat).all fun x => (s.ring.owner x).isNone
  | .claim p => match s.ring.pp p with
    | .tCache _ cur => decide (cur + 1 < 2 ^ 31)
    | _ => true
  | _ => true

/-- `LoopCalm` by computation. -/
def calmB (s : EvLoop.St Tag) (a : EvLoop.Act Tag) : Bool :=
  okB s a && (match a with
    | .throw => false
    | .start => decide (s.ring.seq 0 = s.ring.cursor)
    | _ => true)

theorem okB_ok {k : Nat} (hk : k ≤ 30) {s : EvLoop.St Tag} {a : EvLoop.Act Tag} (hr : EvLoop.Reach k (fun _ _ => True) s) (h : okB s a = true) :
    EvLoop.OkAct s a := by
  cases a with
  | start =>
    intro x
    cases ho : s.ring.owner x with
    | none => rfl
    | some p =>
      have h1 := (hr.inv hk).own_rng x p ho
      have h2 := List.all_eq_true.mp h x.toNat (List.mem_range.mpr (by omega))
      rw [Int.toNat_of_nonneg h1.1, ho] at h2
      cases h2
  | claim p =>
    intro cur hc
    simp only [okB, hc, decide_eq_true_eq] at h
    exact h
  | _ => trivial

/-- The check applied to the step of the event loop in a step, if any. -/
def chkAct {k : Nat} (chk : EvLoop.St Tag → EvLoop.Act Tag → Bool) (s : St T (evLoop k)) (a : Act T (evLoop k)) : Bool :=
  match a.inner with
  | some b => chk s.ch b
  | none => true

/-- Runs with a check of the steps of the event loop. -/
def runB {k : Nat} (chk : EvLoop.St Tag → EvLoop.Act Tag → Bool) (c : Cfg T) : St T (evLoop k) → List (Act T (evLoop k)) → Option (St T (evLoop k))
  | s, [] => some s
  | s, a :: rest =>
    if chkAct chk s a then
      match step c s a with
      | none => none
      | some s' => runB chk c s' rest
    else none

theorem runB_ok {k : Nat} (hk : k ≤ 30) {c : Cfg T} (as : List (Act T (evLoop k))) {s s' : St T (evLoop k)} (h : Reach c LoopOk s)
    (hr : runB okB c s as = some s') : Reach c LoopOk s' := by
  induction as generalizing s with
  | nil => cases hr; exact h
  | cons a as ih =>
    simp only [runB] at hr
    split at hr
    · next hc =>
      split at hr
      · cases hr
      · next s1 hs =>
        refine ih (h.step (fun b hb => ?_) hs) hr
        simp only [chkAct, hb] at hc
        exact okB_ok hk (ev_reach (fun _ _ h => h) h.chan) hc
    · cases hr

theorem runB_calm {k : Nat} (hk : k ≤ 30) {c : Cfg T} (as : List (Act T (evLoop k))) {s s' : St T (evLoop k)} (h : Reach c LoopCalm s)
    (hr : runB calmB c s as = some s') : Reach c LoopCalm s' := by
  induction as generalizing s with
  | nil => cases hr; exact h
  | cons a as ih =>
    simp only [runB] at hr
    split at hr
    · next hc =>
      split at hr
      · cases hr
      · next s1 hs =>
        refine ih (h.step (fun b hb => ?_) hs) hr
        simp only [chkAct, hb] at hc
        simp only [calmB, Bool.and_eq_true] at hc
        refine ⟨okB_ok hk (ev_reach (fun _ _ h => h.1) h.chan) hc.1, ?_, ?_⟩
        · rintro rfl; exact absurd hc.2 (by simp)
        · rintro rfl; simpa using hc.2
    · cases hr

/-- Two publisher threads, room for one kept event, pool of `n`. -/
def cfg (n : Nat) : Cfg Nat := ⟨⟨n, 0, none, none⟩, 2, 1⟩

abbrev EA := Act Nat (evLoop 1)

/-- A step of the loop alone. -/
abbrev lp (a : EvLoop.Act Tag) : EA := .chan a

/-- Thread `t` publishes `v` as publication `k` in object `o`; the ring has room. -/
def pub (t v o k : Nat) : List EA :=
  [.acquire t (.publish v), .write t, .send t (.call t "a" (some (o, k))), lp (.claim t), lp (.claim t), lp (.claim t), lp (.write t), lp (.publish t), .finish t]

/-- The loop finds one event and calls the listener. -/
def deliver : List EA := [lp .look, lp .scan, lp .scan, lp .advance]

/-- What we look at. -/
structure View where
  reads : List (Nat × Nat)
  stack : Option (List Nat)
  allocs : Nat
  kept : List (Nat × Nat)
  cp : MRing.CPc
  cursor : Int
  obj0 : Option Nat
  obj1 : Option Nat
  deriving DecidableEq

def view (s : St Nat (evLoop 1)) : View :=
  ⟨s.reads, s.pool.map (·.stack), s.allocs, s.kept, (EvLoop.St.ring s.ch).cp 0, (EvLoop.St.ring s.ch).cursor, (s.pc 0).obj, (s.pc 1).obj⟩

theorem idle_of {p : Pc Nat} (hp : p.obj = none) : p = .idle := by cases p <;> first | rfl | cases hp

theorem quiet_of {n : Nat} {s : St Nat (evLoop 1)} (h0 : (s.pc 0).obj = none) (h1 : (s.pc 1).obj = none) (hk : s.kept = []) : Quiet (cfg n) s :=
  ⟨fun t ht => by
    have : t = 0 ∨ t = 1 := by simp only [cfg] at ht; omega
    rcases this with rfl | rfl
    · exact idle_of h0
    · exact idle_of h1, hk⟩

theorem run_some {k : Nat} {chk} {c : Cfg Nat} {as : List (Act Nat (evLoop k))} {β : Type} {f : St Nat (evLoop k) → β} {b : β}
    (h : (runB chk c (St.init c) as).map f = some b) : ∃ s, runB chk c (St.init c) as = some s ∧ f s = b := by
  obtain ⟨s, h1, h2⟩ := Option.map_eq_some_iff.mp h
  exact ⟨s, h1, h2⟩

/-- The hypotheses of `C78_event_loop_all_back_partial` hold: two events, one kept for a while and read again after its slot was reused; in the end all objects are back. -/
theorem C78_example_event_loop : ∃ s : St Nat (evLoop 1), Reach (cfg 2) LoopCalm s ∧ Quiet (cfg 2) s ∧
    (EvLoop.St.ring s.ch).cp 0 = .wait 3 ∧ (EvLoop.St.ring s.ch).cursor = 2 ∧ s.reads = [(0, 70), (0, 70), (1, 80), (2, 90)] ∧ AllBack (cfg 2) s := by
  have h : (runB calmB (cfg 2) (St.init (cfg 2)) ([lp .start, lp .run] ++ pub 0 70 0 0 ++ deliver ++ [.read, .keep, lp .finish, lp .advance] ++
      pub 1 80 1 1 ++ deliver ++ [.readKept 0, .dropKept 0, .read, lp .finish, lp .advance] ++
      [.acquire 0 (.publish 90), .write 0, .send 0 (.call 0 "a" (some (1, 2))), lp (.claim 0), lp (.claim 0), lp (.claim 0), lp (.claim 0), lp (.claim 0), lp (.claim 0),
       lp (.write 0), lp (.publish 0), .finish 0] ++ deliver ++ [.read, lp .finish, lp .advance])).map view =
      some ⟨[(0, 70), (0, 70), (1, 80), (2, 90)], some [1, 0], 2, [], .wait 3, 2, none, none⟩ := by decide +kernel
  obtain ⟨s, h1, h2⟩ := run_some h
  simp only [view, View.mk.injEq] at h2
  obtain ⟨e1, e2, e3, e4, e5, e6, e7, e8⟩ := h2
  have hr := runB_calm (by omega) _ .init h1
  have hq : Quiet (cfg 2) s := quiet_of e7 e8 e4
  exact ⟨s, hr, hq, e5, e6, e1, C78_event_loop_all_back_partial (by omega) hr hq e5 (by omega)⟩

/-- **Finding.** A listener that throws on an event loop: the handler does not get to `eventData.reset()` (event_loop_event_handler.h 84), so the slot keeps its
`shared_ptr` until another event is written over it, a whole turn of the ring later.  Here nothing is in use any more, the loop waits for the next event, and the pool is
empty; the next `publish` allocates. -/
theorem C78_violation_throw_keeps_event : ∃ s : St Nat (evLoop 1), Reach (cfg 1) LoopOk s ∧ Quiet (cfg 1) s ∧
    (EvLoop.St.ring s.ch).cp 0 = .wait 1 ∧ (EvLoop.St.ring s.ch).cursor = 0 ∧ ¬ AllBack (cfg 1) s ∧ s.allocs = 1 ∧
    ∃ s', step (cfg 1) s (.acquire 1 (.publish 80)) = some s' ∧ s'.allocs = 2 := by
  have h : (runB okB (cfg 1) (St.init (cfg 1)) ([lp .start, lp .run] ++ pub 0 70 0 0 ++ deliver ++ [.read, lp .throw])).map view =
      some ⟨[(0, 70)], some [], 1, [], .wait 1, 0, none, none⟩ := by decide +kernel
  obtain ⟨s, h1, h2⟩ := run_some h
  simp only [view, View.mk.injEq] at h2
  obtain ⟨e1, e2, e3, e4, e5, e6, e7, e8⟩ := h2
  obtain ⟨p, hp, e2⟩ := Option.map_eq_some_iff.mp e2
  refine ⟨s, runB_ok (by omega) _ .init h1, quiet_of e7 e8 e4, e5, e6, fun hb => ?_, e3, ?_⟩
  · have := hb p hp 0 (by simp [cfg])
    rw [e2] at this; cases this
  · have hi := idle_of e8
    refine ⟨_, by simp only [step, hi, hp, Pool.acquire, e2]; rfl, ?_⟩
    simp [fresh, e3]

/-- **Finding.** An event accepted while the loop is stopped is skipped by the next start (C30) — and its slot keeps it: the object is missing from the pool until the slot is
reused. -/
theorem C78_violation_restart_keeps_event : ∃ s : St Nat (evLoop 1), Reach (cfg 1) LoopOk s ∧ Quiet (cfg 1) s ∧
    (EvLoop.St.ring s.ch).cp 0 = .wait 1 ∧ (EvLoop.St.ring s.ch).cursor = 0 ∧ ¬ AllBack (cfg 1) s ∧ s.reads = [] := by
  have h : (runB okB (cfg 1) (St.init (cfg 1)) ([lp .start, lp .run, lp .stop] ++ pub 0 70 0 0 ++ [lp .start, lp .run])).map view =
      some ⟨[], some [], 1, [], .wait 1, 0, none, none⟩ := by decide +kernel
  obtain ⟨s, h1, h2⟩ := run_some h
  simp only [view, View.mk.injEq] at h2
  obtain ⟨e1, e2, e3, e4, e5, e6, e7, e8⟩ := h2
  obtain ⟨p, hp, e2⟩ := Option.map_eq_some_iff.mp e2
  refine ⟨s, runB_ok (by omega) _ .init h1, quiet_of e7 e8 e4, e5, e6, fun hb => ?_, e1⟩
  have := hb p hp 0 (by simp [cfg])
  rw [e2] at this; cases this

/-- A run of a publisher on the in-memory middleware with a discarding queue of one place: the second event pushes the first one out, whose object goes back at once and is
used again by the third; the listener reads what was published. -/
theorem C78_example_memory : ∃ s : St Nat (memQ true 1), Reach (cfg 2) (fun _ _ => True) s ∧ s.reads = [(1, 80)] ∧
    s.heldEvents = [(0, 2), (1, 1)] ∧ s.allocs = 2 ∧ (s.content 0, s.content 1) = (90, 80) := by
  have h : ((run (cfg 2) (St.init (cfg 2) : St Nat (memQ true 1)) [.acquire 1 (.publish 70), .write 1, .send 1 (.bm (.publish 1 (some (0, 0)) 0)), .chan (.bm (.account 1)), .finish 1,
        .acquire 1 (.publish 80), .write 1, .send 1 (.bm (.publish 1 (some (1, 1)) 0)), .chan (.bm (.account 1)), .finish 1,
        .chan (.bm (.poll 0 0)), .read, .acquire 1 (.publish 90), .write 1, .send 1 (.bm (.publish 1 (some (0, 2)) 0))]).map
        fun s => (s.reads, s.heldEvents, s.allocs, (s.content 0, s.content 1))) = some ([(1, 80)], [(0, 2), (1, 1)], 2, (90, 80)) := by decide +kernel
  obtain ⟨s, h1, h2⟩ := Option.map_eq_some_iff.mp h
  simp only [Prod.mk.injEq] at h2
  exact ⟨s, Reach.run (fun _ _ => trivial) .init h1, h2.1, h2.2.1, h2.2.2.1, by rw [h2.2.2.2.1, h2.2.2.2.2]⟩

/-- Only thread 1 publishes. -/
def one : CqP.Act Tag → Bool
  | .cq (.publish t _) => t == 1
  | .cq (.enq t _) => t == 1
  | .cq (.rem t _) => t == 1
  | .cq (.account t) => t == 1
  | _ => true

theorem one_pc {d : Bool} {s s' : CqP.St Tag} {a : CqP.Act Tag} (ha : one a = true) (hs : CqP.step d s a = some s') (h : ∀ u, u ≠ 1 → s.cq.pc u = .idle) :
    ∀ u, u ≠ 1 → s'.cq.pc u = .idle := by
  intro u hu
  cases a with
  | cq b =>
    simp only [CqP.step] at hs
    split at hs
    · cases hs
    · split at hs
      · next c hb =>
        cases hs
        cases b with
        | publish t x =>
          have : t = 1 := by simpa [one] using ha
          subst this
          simp only [CQ.step] at hb
          (repeat' split at hb) <;> first | (cases hb; done) | (cases hb; exact (upd_other _ _ hu).trans (h u hu))
        | enq t ok =>
          have : t = 1 := by simpa [one] using ha
          subst this
          simp only [CQ.step] at hb
          (repeat' split at hb) <;> first | (cases hb; done) | (cases hb; exact (upd_other _ _ hu).trans (h u hu))
        | rem t seen =>
          have : t = 1 := by simpa [one] using ha
          subst this
          simp only [CQ.step] at hb
          (repeat' split at hb) <;> first | (cases hb; done) | (cases hb; exact (upd_other _ _ hu).trans (h u hu))
        | account t =>
          have : t = 1 := by simpa [one] using ha
          subst this
          simp only [CQ.step] at hb
          (repeat' split at hb) <;> first | (cases hb; done) | (cases hb; exact (upd_other _ _ hu).trans (h u hu))
        | poll seen => simp only [CQ.step] at hb; (repeat' split at hb) <;> first | (cases hb; done) | (cases hb; exact h u hu)
        | emit => simp only [CQ.step] at hb; (repeat' split at hb) <;> first | (cases hb; done) | (cases hb; exact h u hu)
      · cases hs
  | throw => simp only [CqP.step] at hs; (repeat' split at hs) <;> first | (cases hs; done) | (cases hs; exact h u hu)
  | restart => simp only [CqP.step] at hs; (repeat' split at hs) <;> first | (cases hs; done) | (cases hs; exact h u hu)

/-- The bound on the queue by computation. -/
def boundB (B : Nat) (s : CqP.St Tag) : CqP.Act Tag → Bool
  | .cq (.enq _ true) => decide (s.cq.q.length < B)
  | _ => true

/-- Runs in which only thread 1 publishes and the queue holds at most `B` events. -/
def runOne {d : Bool} (B : Nat) (c : Cfg T) : St T (concQ d) → List (Act T (concQ d)) → Option (St T (concQ d))
  | s, [] => some s
  | s, a :: rest =>
    if (a.inner.all fun b => one b && boundB B s.ch b) then
      match step c s a with
      | none => none
      | some s' => runOne B c s' rest
    else none

theorem runOne_reach {d : Bool} {B : Nat} {c : Cfg T} (as : List (Act T (concQ d))) {s s' : St T (concQ d)} (h : Reach c (TokenBound B) s)
    (ho : ∀ u, u ≠ 1 → (CqP.St.cq s.ch).pc u = .idle) (hr : runOne B c s as = some s') : Reach c (TokenBound B) s' := by
  induction as generalizing s with
  | nil => cases hr; exact h
  | cons a as ih =>
    simp only [runOne] at hr
    split at hr
    · next hc =>
      split at hr
      · cases hr
      · next s1 hs =>
        have hP : ∀ b, a.inner = some b → TokenBound B s.ch b ∧ one b = true := by
          intro b hb
          rw [hb] at hc
          have hc : (one b && boundB B s.ch b) = true := hc
          rw [Bool.and_eq_true] at hc
          refine ⟨⟨?_, ?_⟩, hc.1⟩
          · rintro ⟨t, u, x, n, y, m, hne, h1, h2⟩
            by_cases ht : t = 1
            · have := ho u (fun e => hne (ht.trans e.symm)); rw [this] at h2; cases h2
            · have := ho t ht; rw [this] at h1; cases h1
          · rintro t rfl
            simpa [boundB] using hc.2
        refine ih (h.step (fun b hb => (hP b hb).1) hs) ?_ hr
        cases a with
        | send t b =>
          simp only [step] at hs
          split at hs
          · split at hs
            · split at hs
              · split at hs
                · next ch' h' => cases hs; exact one_pc (hP b rfl).2 h' ho
                · cases hs
              · cases hs
            · cases hs
          · cases hs
        | chan b =>
          simp only [step] at hs
          split at hs
          · cases hs
          · split at hs
            · next ch' h' => cases hs; exact one_pc (hP b rfl).2 h' ho
            · cases hs
        | acquire t call => simp only [step] at hs; (repeat' split at hs) <;> first | (cases hs; done) | (cases hs; exact ho)
        | write t => simp only [step] at hs; (repeat' split at hs) <;> first | (cases hs; done) | (cases hs; exact ho)
        | finish t => simp only [step] at hs; (repeat' split at hs) <;> first | (cases hs; done) | (cases hs; exact ho)
        | read => simp only [step] at hs; (repeat' split at hs) <;> first | (cases hs; done) | (cases hs; exact ho)
        | keep => simp only [step] at hs; (repeat' split at hs) <;> first | (cases hs; done) | (cases hs; exact ho)
        | readKept i => simp only [step] at hs; (repeat' split at hs) <;> first | (cases hs; done) | (cases hs; exact ho)
        | dropKept i => simp only [step] at hs; (repeat' split at hs) <;> first | (cases hs; done) | (cases hs; exact ho)
    · cases hr

/-- A run of a publisher on the concurrent queue, blocking, one place: the second event waits until the poller takes the first; a listener throws, the thread ends, and the
object is back in the pool; the hypotheses of `C78_concurrent_queue_no_allocation` hold for a pool of 5. -/
theorem C78_example_concurrent_queue : ∃ s : St Nat (concQ false), Reach (cfg 5) (TokenBound 1) s ∧ s.reads = [(0, 70)] ∧ s.heldEvents = [(1, 1)] ∧
    s.pool.map (·.stack) = some [0, 2, 3, 4] ∧ 1 + 1 + (cfg 5).threads + (cfg 5).maxKept ≤ min (cfg 5).pub.poolSize 65535 := by
  have h : ((runOne 1 (cfg 5) (St.init (cfg 5) : St Nat (concQ false)) [.acquire 1 (.publish 70), .write 1, .send 1 (.cq (.publish 1 (some (0, 0)))), .chan (.cq (.enq 1 true)), .finish 1,
        .acquire 1 (.publish 80), .write 1, .send 1 (.cq (.publish 1 (some (1, 1)))), .chan (.cq (.enq 1 false)), .chan (.cq (.poll true)), .chan (.cq (.enq 1 true)), .finish 1,
        .read, .chan .throw]).map
        fun s => (s.reads, s.heldEvents, s.pool.map (·.stack))) = some ([(0, 70)], [(1, 1)], some [0, 2, 3, 4]) := by decide +kernel
  obtain ⟨s, h1, h2⟩ := Option.map_eq_some_iff.mp h
  simp only [Prod.mk.injEq] at h2
  exact ⟨s, runOne_reach _ .init (fun _ _ => rfl) h1, h2.1, h2.2.1, h2.2.2, by decide⟩

end Verif.RefP
