import Verif.Lemmas.ElDispatchHist
import Verif.Spec.ElDispatchLive

/-!
C79: the way of events from the publishers of an `EventLoopMiddlewareProvider` to the listeners of its subscribers and to its scheduler.
The specification is in Spec/ElDispatch.lean.
-/

namespace Verif.ElD
open Verif

variable {D F : Type} [DecidableEq D] [DecidableEq F]

/-- **C79**: for every type of the external emitter and of the emitters of the subscribers, with or without a container, every history of registrations,
removals, deliveries and calls, under any interleaving of publishers, users and the loop, is one that the specification allows: for every event the loop
takes up, exactly the listeners registered on its topic are called, each once, in the order of registration, with that event, before the next event; a once
listener that has returned is gone; functions go to the scheduler's listener only; an exception ends the delivery of that event; nothing destroyed is used.

Missing: the conditions `Ok` (a topic is not used for events and for the scheduler, a listener name is not registered twice at a subscriber, an emitter of
type `UNSAFE_SINGLE` gets one listener): see the violations below. -/
theorem C79_dispatch_partial {k : Nat} (hk : k ≤ 30) {c : Bool} {kind : Kind} {s : St D F} (h : Reach k c kind (fun s a => Ok s a ∧ OkPtr s a) s) : Conforms s.hist := by
  obtain ⟨a, _, h1, _⟩ := h.inv hk
  exact ⟨a, h1⟩

omit [DecidableEq D] [DecidableEq F] in
theorem Reach.mono {k : Nat} {c : Bool} {kind : Kind} {P Q : St D F → Act D F → Prop} (hPQ : ∀ s a, P s a → Q s a) {s : St D F} (h : Reach k c kind P s) :
    Reach k c kind Q s := by
  induction h with
  | init => exact .init
  | step _ hp hs ih => exact ih.step (hPQ _ _ hp) hs

omit [DecidableEq D] [DecidableEq F] in
/-- **C79**: the events the loop takes up are the accepted ones, in the order of acceptance, with the topics and data they were published with. -/
theorem C79_taken_up_in_order {k : Nat} (hk : k ≤ 30) {c : Bool} {kind : Kind} {s : St D F} (h : Reach k c kind OkDrained s) :
    starts s.hist = ((EvLoop.acceptedInOrder s.loop).take (starts s.hist).length).map (fun a => (a.2.1, some a.2.2.1)) ∧
    (starts s.hist).length ≤ (EvLoop.acceptedInOrder s.loop).length := by
  have hok : ∀ (s : St D F) (a : EvLoop.Act (Msg D F)), OkDrained s (.loop a) → EvLoop.OkAct s.loop a := fun s a h => h.1.1
  have h1 := h.starts hk hok
  have h2 : EvLoop.Reach k EvLoop.DrainedStart s.loop := h.loop (fun s a h => ⟨h.2 a rfl, hok s a h⟩) (fun _ => nofun)
  obtain ⟨h3, h4⟩ := EvLoop.C31_drained_restart_partial hk h2
  have hl : (starts s.hist).length = (EvLoop.allEmitted s.loop).length := by rw [h1, List.length_map]
  rw [hl]
  refine ⟨?_, h4⟩
  rw [h1]
  conv_lhs => rw [h3]
  rw [List.map_map]
  rfl

omit [DecidableEq D] [DecidableEq F] in
/-- The delivery under way in the specification. -/
theorem pend_none {k : Nat} {s : St D F} {a : Abs (Msg D F)} {ls : Nat → List Lst} (hi : Inv k s a ls) (hd : s.del = none) (no : Nat) : pend no a = [] := by
  have := hi.cur
  rw [hd] at this
  cases hc : a.cur with
  | none => simp [pend, hc]
  | some y => rw [hc] at this; exact this.elim

/-- **C79**: a named listener is called with exactly the events of its topic that the loop takes up after its registration, each once, in order, as long as it
is not removed and no listener throws.  `r` is the event of a delivery under way. -/
theorem C79_named_listener_gets_all {k : Nat} (hk : k ≤ 30) {c : Bool} {kind : Kind} {s : St D F} (h : Reach k c kind (fun s a => Ok s a ∧ OkPtr s a) s)
    {h1 h2 : List (Ev (Msg D F))} {n l : String} (hh : s.hist = h1 ++ .reg n l :: h2) (hnt : NoThrow h2) (hrem : .rem n l ∉ h2) :
    ∃ r, callsOf (regs h1) s.hist ++ r = eventsOn n h2 ∧ r.length ≤ 1 ∧ (s.del = none → r = []) := by
  obtain ⟨a', ls, hr, hi⟩ := h.inv hk
  rw [hh] at hr ⊢
  obtain ⟨own, a, hw, hrun, hno, hown, hon, hp, hc⟩ := after_reg hr (n := n) (kd := .named l) (fun _ => rfl)
  refine ⟨pend (regs h1) a', ?_, pend_le _ _, fun hd => pend_none hi hd _⟩
  have := track_exact hw hrun hno (by rw [hown]; exact hon) hnt (by rw [hown]; nofun) (by
    intro l' hl'
    rw [hown] at hl' ⊢
    cases hl'
    exact hrem)
  rw [hown, hp, List.nil_append] at this
  rw [← this, List.append_cons]
  simp only [callsOf, List.filterMap_append]
  simp only [callsOf, List.filterMap_append] at hc
  rw [hc, List.nil_append]

/-- **C79**: the functions given to the scheduler's publisher are run, each once, in the order they are taken up. -/
theorem C79_scheduled_functions_run {k : Nat} (hk : k ≤ 30) {c : Bool} {kind : Kind} {s : St D F} (h : Reach k c kind (fun s a => Ok s a ∧ OkPtr s a) s)
    {h1 h2 : List (Ev (Msg D F))} {n : String} (hh : s.hist = h1 ++ .sched n :: h2) (hnt : NoThrow h2) :
    ∃ r, callsOf (regs h1) s.hist ++ r = eventsOn n h2 ∧ r.length ≤ 1 ∧ (s.del = none → r = []) := by
  obtain ⟨a', ls, hr, hi⟩ := h.inv hk
  rw [hh] at hr ⊢
  obtain ⟨own, a, hw, hrun, hno, hown, hon, hp, hc⟩ := after_reg hr (n := n) (kd := .exec) (fun _ => rfl)
  refine ⟨pend (regs h1) a', ?_, pend_le _ _, fun hd => pend_none hi hd _⟩
  have := track_exact hw hrun hno (by rw [hown]; exact hon) hnt (by rw [hown]; nofun) (by intro l' hl'; rw [hown] at hl'; cases hl')
  rw [hown, hp, List.nil_append] at this
  rw [← this, List.append_cons]
  simp only [callsOf, List.filterMap_append]
  simp only [callsOf, List.filterMap_append] at hc
  rw [hc, List.nil_append]

/-- **C79**: a once listener is called with the first event of its topic that is taken up after its registration, and never again. -/
theorem C79_once_listener_called_once {k : Nat} (hk : k ≤ 30) {c : Bool} {kind : Kind} {s : St D F} (h : Reach k c kind (fun s a => Ok s a ∧ OkPtr s a) s)
    {h1 h2 : List (Ev (Msg D F))} {n : String} (hh : s.hist = h1 ++ .once n :: h2) (hnt : NoThrow h2) :
    ∃ r, callsOf (regs h1) s.hist ++ r = (eventsOn n h2).take 1 ∧ (s.del = none → r = []) := by
  obtain ⟨a', ls, hr, hi⟩ := h.inv hk
  rw [hh] at hr ⊢
  obtain ⟨own, a, hw, hrun, hno, hown, hon, hp, hc⟩ := after_reg hr (n := n) (kd := .once) (fun _ => rfl)
  refine ⟨pend (regs h1) a', ?_, fun hd => pend_none hi hd _⟩
  have := track_once hw hrun hno (by rw [hown]; exact hon) hnt (by rw [hown])
  rw [hown, hp, List.nil_append] at this
  rw [← this, List.append_cons]
  simp only [callsOf, List.filterMap_append]
  simp only [callsOf, List.filterMap_append] at hc
  rw [hc, List.nil_append]

/-- **C79**: with exceptions and removals too, a listener is only ever called with events of its topic taken up after its registration, in order and not
twice with the same. -/
theorem C79_own_topic_in_order {k : Nat} (hk : k ≤ 30) {c : Bool} {kind : Kind} {s : St D F} (h : Reach k c kind (fun s a => Ok s a ∧ OkPtr s a) s)
    {h1 h2 : List (Ev (Msg D F))} {n : String} {e : Ev (Msg D F)} (he : (∃ l, e = .reg n l) ∨ e = .once n ∨ e = .sched n) (hh : s.hist = h1 ++ e :: h2) :
    (callsOf (regs h1) s.hist).Sublist (eventsOn n h2) := by
  obtain ⟨a', ls, hr, hi⟩ := h.inv hk
  rw [hh] at hr ⊢
  have main : ∀ kd, (∀ a : Abs (Msg D F), a.next e = some { a with count := a.count + 1, live := upd a.live n (a.live n ++ [⟨a.count, kd⟩]) }) →
      (callsOf (regs h1) (h1 ++ e :: h2)).Sublist (eventsOn n h2) := by
    intro kd hkd
    obtain ⟨own, a, hw, hrun, hno, hown, hon, hp, hc⟩ := after_reg hr (n := n) (kd := kd) hkd
    have := track_sub hw hrun hno
    rw [hown, hp, List.nil_append] at this
    have := (List.sublist_append_left _ _).trans this
    rw [List.append_cons]
    simp only [callsOf, List.filterMap_append] at hc this ⊢
    rw [hc, List.nil_append]
    exact this
  rcases he with ⟨l, rfl⟩ | rfl | rfl
  · exact main (.named l) (fun _ => rfl)
  · exact main .once (fun _ => rfl)
  · exact main .exec (fun _ => rfl)

/-- **C79**: after its removal a named listener is not called for any event taken up later, and at most once more for the delivery under way. -/
theorem C79_removed_not_called {k : Nat} (hk : k ≤ 30) {c : Bool} {kind : Kind} {s : St D F} (h : Reach k c kind (fun s a => Ok s a ∧ OkPtr s a) s)
    {h1 h2 h3 : List (Ev (Msg D F))} {n l : String} (hh : s.hist = h1 ++ .reg n l :: (h2 ++ .rem n l :: h3)) :
    (callsOf (regs h1) h3).length ≤ 1 ∧ ∀ h4 n' m h5, h3 = h4 ++ .start n' m :: h5 → callsOf (regs h1) h5 = [] := by
  obtain ⟨a', ls, hr, hi⟩ := h.inv hk
  rw [hh] at hr
  exact hist_removed hr

omit [DecidableEq D] [DecidableEq F] in
theorem eventsOn_starts (n : String) (h : List (Ev (Msg D F))) : eventsOn n h = (starts h).filterMap fun x => if x.1 = n then x.2 else none := by
  simp only [eventsOn, starts, List.filterMap_filterMap]
  apply List.filterMap_congr
  intro e _
  cases e with
  | start n' m => cases m <;> simp
  | _ => rfl

/-- **C79**, from publisher to listener: a listener is called with exactly the accepted events of its topic, from the first one that the loop takes up after the
registration to the last one taken up so far, each once, in the order of acceptance, with the data they were published with. -/
theorem C79_end_to_end {k : Nat} (hk : k ≤ 30) {c : Bool} {kind : Kind} {s : St D F} (h : Reach k c kind OkDrained s)
    {h1 h2 : List (Ev (Msg D F))} {n l : String} (hh : s.hist = h1 ++ .reg n l :: h2) (hnt : NoThrow h2) (hrem : .rem n l ∉ h2) :
    ∃ r, callsOf (regs h1) s.hist ++ r =
        ((((EvLoop.acceptedInOrder s.loop).take (starts s.hist).length).drop (starts h1).length).filter fun a => decide (a.2.1 = n)).map (fun a => a.2.2.1) ∧
      r.length ≤ 1 ∧ (s.del = none → r = []) := by
  obtain ⟨r, e1, e2⟩ := C79_named_listener_gets_all hk (h.mono fun _ _ h => h.1) hh hnt hrem
  refine ⟨r, ?_, e2⟩
  rw [e1, eventsOn_starts]
  have hst := (C79_taken_up_in_order hk h).1
  have hs2 : starts s.hist = starts h1 ++ starts h2 := by
    rw [hh]
    simp only [starts, List.filterMap_append]
    rfl
  have : starts h2 = (((EvLoop.acceptedInOrder s.loop).take (starts s.hist).length).drop (starts h1).length).map (fun a => (a.2.1, some a.2.2.1)) := by
    rw [List.map_drop, ← hst, hs2]
    simp
  rw [this, List.filterMap_map]
  generalize ((EvLoop.acceptedInOrder s.loop).take (starts s.hist).length).drop (starts h1).length = L
  induction L with
  | nil => rfl
  | cons x L ih =>
    rw [List.filterMap_cons, List.filter_cons]
    by_cases hx : x.2.1 = n
    · simp only [Function.comp, hx, if_true, decide_true, List.map_cons]
      rw [← ih]; rfl
    · simp only [Function.comp, hx, if_false, decide_false]
      exact ih

/-- **C79**: a delivery under way comes to its end when the listeners return. -/
theorem C79_delivery_completes {k : Nat} (hk : k ≤ 30) {c : Bool} {kind : Kind} {s : St D F} (h : Reach k c kind (fun s a => Ok s a ∧ OkPtr s a) s) (hd : s.del.isSome) :
    ∃ j s', run k c s (List.replicate j (.call true) ++ [.loop .finish]) = some s' ∧ s'.del = none := by
  obtain ⟨a, ls, hr, hi⟩ := h.inv hk
  clear h hr
  have : ∀ (todo : List (Nat × Handler)) (s : St D F) (a : Abs (Msg D F)) (ls : Nat → List Lst) (msg : Option (Msg D F)), Inv k s a ls → s.del = some ⟨msg, todo⟩ →
      ∃ j s', run k c s (List.replicate j (.call true) ++ [.loop .finish]) = some s' ∧ s'.del = none := by
    intro todo
    induction todo with
    | nil =>
      intro s a ls msg hi hd
      obtain ⟨nx, av, hcp⟩ := hi.hd.mp (by rw [hd]; rfl)
      have : ∃ l, EvLoop.step k s.loop .finish = some l := by
        simp [EvLoop.step, hcp, EvLoop.lift, MRing.step]
      obtain ⟨l, hl⟩ := this
      exact ⟨0, { s with loop := l, del := none, hist := s.hist ++ [.fin] }, by simp only [List.replicate, List.nil_append, run, step, hd, hl, Option.map_some], rfl⟩
    | cons t todo ih =>
      intro s a ls msg hi hd
      have hcur := hi.cur
      rw [hd] at hcur
      match hc : a.cur with
      | none => rw [hc] at hcur; exact hcur.elim
      | some (n, m, ents) =>
        rw [hc] at hcur
        obtain ⟨h1, h2, h3⟩ := hcur
        cases h1
        have : ∃ s1, step k c s (.call true) = some s1 ∧ s1.del = some ⟨some m, todo⟩ := by
          obtain ⟨i, hd'⟩ := t
          simp only [step, hd]
          rw [if_neg (by rw [hi.regs.dead]; simp), if_neg (by simp)]
          cases ho : hd'.once with
          | false => 
            split
            · rename_i heq; cases heq
            · exact ⟨_, rfl, rfl⟩
          | true =>
            cases h3 with
            | cons hte _ =>
              obtain ⟨⟨o, o1, o2⟩, x, x1, x2, x3, x4⟩ := hte.2.2.2 ho
              obtain ⟨em, he, _⟩ := (hi.regs.obj i _ o1).2.1.remove c x1
              rw [x2] at he
              simp only at o1 he
              simp only [o1, he]
              exact ⟨_, rfl, rfl⟩
        obtain ⟨s1, hs1, hd1⟩ := this
        obtain ⟨evs, a1, ls1, _, _, hi1⟩ := hi.call hs1
        obtain ⟨j, s', hj, hj2⟩ := ih s1 a1 ls1 _ hi1 hd1
        exact ⟨j + 1, s', by simp only [List.replicate_succ, List.cons_append, run, hs1]; exact hj, hj2⟩
  obtain ⟨d, hd⟩ := Option.isSome_iff_exists.mp hd
  exact this d.todo s a ls d.msg hi hd

/-! ### Concrete cases -/

def roomB : Em → Bool
  | .safe s => decide (s.last + 1 < 2 ^ 32)
  | .multi _ => true
  | .single s => !s.registered

omit [DecidableEq D] [DecidableEq F] in
theorem roomB_iff (m : Em) : roomB m = true → m.room := by
  cases m <;> simp [roomB, Em.room]

/-- The conditions, checked. -/
def okC (s : St D F) : Act D F → Bool
  | .getPublisher n => decide (s.sched ≠ some n)
  | .getSubscriber _ _ => roomB s.ext
  | .getScheduler n => decide (schedName n ∉ s.pubs) && (s.subs.lookup (schedName n)).isNone && roomB s.ext
  | .reg i l => match s.objs[i]? with | some (.sub o) => (o.map l).isNone && roomB o.em | _ => false
  | .once i => match s.objs[i]? with | some (.sub o) => roomB o.em | _ => false
  | .rem i _ => match s.objs[i]? with | some (.sub _) => true | _ => false
  | .loop a => EvLoop.okB s.loop a
  | .call _ => true

omit [DecidableEq D] [DecidableEq F] in
theorem okC_ok {s : St D F} {x : Act D F} (h : okC s x = true) : OkDrained s x := by
  cases x with
  | getPublisher n => exact ⟨⟨by simpa [okC, Ok] using h, trivial⟩, nofun⟩
  | getSubscriber n kd => exact ⟨⟨fun _ => roomB_iff _ h, trivial⟩, nofun⟩
  | getScheduler n =>
    simp only [okC, Bool.and_eq_true, decide_eq_true_eq, Option.isNone_iff_eq_none] at h
    exact ⟨⟨fun _ => ⟨h.1.1, h.1.2, roomB_iff _ h.2⟩, trivial⟩, nofun⟩
  | reg i l =>
    simp only [okC] at h
    split at h
    · rename_i o ho
      rw [Bool.and_eq_true, Option.isNone_iff_eq_none] at h
      refine ⟨⟨fun o' ho' => ?_, ⟨o, ho⟩⟩, nofun⟩
      rw [ho] at ho'; cases ho'
      exact ⟨h.1, roomB_iff _ h.2⟩
    · cases h
  | once i =>
    simp only [okC] at h
    split at h
    · rename_i o ho
      refine ⟨⟨fun o' ho' => ?_, ⟨o, ho⟩⟩, nofun⟩
      rw [ho] at ho'; cases ho'
      exact roomB_iff _ h
    · cases h
  | rem i l =>
    simp only [okC] at h
    split at h
    · rename_i o ho; exact ⟨⟨trivial, ⟨o, ho⟩⟩, nofun⟩
    · cases h
  | loop a => exact ⟨⟨(EvLoop.okB_ok h).1, trivial⟩, fun b hb => by cases hb; exact (EvLoop.okB_ok h).2⟩
  | call r => exact ⟨⟨trivial, trivial⟩, nofun⟩

def runOk (k : Nat) (c : Bool) (s : St D F) : List (Act D F) → Option (St D F)
  | [] => some s
  | x :: xs => if okC s x then
      match step k c s x with
      | none => none
      | some s' => runOk k c s' xs
    else none

omit [DecidableEq D] [DecidableEq F] in
theorem Reach.of_runOk {k : Nat} {c : Bool} {kind : Kind} {s s0 : St D F} (xs : List (Act D F)) (h0 : Reach k c kind OkDrained s0) (h : runOk k c s0 xs = some s) :
    Reach k c kind OkDrained s := by
  induction xs generalizing s0 with
  | nil => cases h; exact h0
  | cons x xs ih =>
    simp only [runOk] at h
    split at h
    · rename_i hok
      split at h
      · cases h
      · rename_i s1 hs1
        exact ih (h0.step (okC_ok hok) hs1) h
    · cases h

/-- The provider with its loop started. -/
def started (kind : Kind) : St D F := ((step 1 false (St.init kind : St D F) (.loop .start)).bind (fun s => step 1 false s (.loop .run))).getD (St.init kind)

omit [DecidableEq D] [DecidableEq F] in
theorem reach_started (kind : Kind) : Reach 1 false kind OkDrained (started kind : St D F) :=
  (Reach.init.step (a := .loop .start) ⟨⟨(by intro x; rfl), trivial⟩, fun b _ _ => by rfl⟩ rfl).step (a := .loop .run)
    ⟨⟨trivial, trivial⟩, fun b hb e => by subst e; cases hb⟩ rfl

/-- A publication by thread `p` with nobody else publishing. -/
def pub (n p : Nat) (t : String) (m : Msg D F) : List (Act D F) := (EvLoop.pubAll n p t m).map .loop

/-- The loop takes up the next event, `j` listeners return. -/
def deliver (j : Nat) : List (Act D F) :=
  [.loop .look, .loop .scan, .loop .scan, .loop .advance] ++ List.replicate j (.call true) ++ [.loop .finish, .loop .advance]

/-- An execution with two topics with emitters of different types, a scheduler, a once listener, a listener registered between two events and a removal. -/
def exActs : List (Act Nat Nat) := [.getSubscriber "a" .safe, .getSubscriber "b" .multi, .getPublisher "a", .getPublisher "b",
  .reg 0 "l0", .once 0, .reg 1 "l2", .getScheduler ""] ++ pub 0 1 "a" (.ev 10) ++ deliver 2 ++ [.reg 0 "l4"] ++ pub 0 2 "b" (.ev 11) ++ deliver 1 ++
  pub 3 1 "EVENTLOOP_SCHEDULER" (.fn 7) ++ deliver 1 ++ pub 0 1 "a" (.ev 12) ++ deliver 2 ++ [.rem 0 "l0"] ++ pub 3 1 "a" (.ev 13) ++ deliver 1

def exHist : List (Ev (Msg Nat Nat)) := [.reg "a" "l0", .once "a", .reg "b" "l2", .sched "EVENTLOOP_SCHEDULER",
  .start "a" (some (.ev 10)), .call 0 (.ev 10) true, .call 1 (.ev 10) true, .fin,
  .reg "a" "l4",
  .start "b" (some (.ev 11)), .call 2 (.ev 11) true, .fin,
  .start "EVENTLOOP_SCHEDULER" (some (.fn 7)), .call 3 (.fn 7) true, .fin,
  .start "a" (some (.ev 12)), .call 0 (.ev 12) true, .call 4 (.ev 12) true, .fin,
  .rem "a" "l0",
  .start "a" (some (.ev 13)), .call 4 (.ev 13) true, .fin]

/-- The hypotheses are met by that execution; the history is as it has to be. -/
theorem C79_example : ∃ s : St Nat Nat, Reach 1 false .safe OkDrained s ∧ s.del = none ∧ s.hist = exHist ∧
    callsOf 0 s.hist = [.ev 10, .ev 12] ∧ callsOf 1 s.hist = [.ev 10] ∧ callsOf 4 s.hist = [.ev 12, .ev 13] := by
  have hx : (runOk 1 false (started .safe : St Nat Nat) exActs).map (fun s => (s.del.isNone, s.hist)) = some (true, exHist) := by decide +kernel
  obtain ⟨s, hs, he⟩ := Option.map_eq_some_iff.mp hx
  injection he with e1 e2
  refine ⟨s, Reach.of_runOk _ (reach_started .safe) hs, by simpa using e1, e2, ?_, ?_, ?_⟩ <;> (rw [e2]; decide +kernel)

/-- The same with an external emitter of type `UNSAFE_MULTI`, and a listener that throws: the listener after it is not called with that event. -/
theorem C79_example_throw : ∃ s : St Nat Nat, Reach 1 false .multi OkDrained s ∧ s.del = none ∧
    s.hist = [.reg "a" "l0", .reg "a" "l1", .start "a" (some (.ev 10)), .call 0 (.ev 10) false,
      .start "a" (some (.ev 11)), .call 0 (.ev 11) true, .call 1 (.ev 11) true, .fin] := by
  have hx : (runOk 1 false (started .multi : St Nat Nat) ([.getSubscriber "a" .multi, .getPublisher "a", .reg 0 "l0", .reg 0 "l1"] ++ pub 0 1 "a" (.ev 10) ++
      [.loop .look, .loop .scan, .loop .scan, .loop .advance, .call false] ++ pub 0 1 "a" (.ev 11) ++ deliver 2)).map
      (fun s => (s.del.isNone, s.hist)) = some (true, [.reg "a" "l0", .reg "a" "l1", .start "a" (some (.ev 10)), .call 0 (.ev 10) false,
      .start "a" (some (.ev 11)), .call 0 (.ev 11) true, .call 1 (.ev 11) true, .fin]) := by decide +kernel
  obtain ⟨s, hs, he⟩ := Option.map_eq_some_iff.mp hx
  injection he with e1 e2
  exact ⟨s, Reach.of_runOk _ (reach_started .multi) hs, by simpa using e1, e2⟩

/-! ### Violations -/

/-- Finding against **C79**: with an external emitter of type `UNSAFE_SINGLE` only the first topic that is subscribed to is served; the events of every other
topic are taken up and nobody is called. -/
theorem C79_violation_single_external :
    (run 1 false (started .single : St Nat Nat) ([.getSubscriber "a" .safe, .getSubscriber "b" .safe, .getPublisher "b", .reg 1 "l"] ++ pub 0 1 "b" (.ev 10) ++ deliver 0)).map
      (fun s => s.hist) = some [.reg "b" "l", .start "b" (some (.ev 10)), .fin] ∧
    ¬ Conforms ([.reg "b" "l", .start "b" (some (.ev 10)), .fin] : List (Ev (Msg Nat Nat))) := by
  refine ⟨by decide +kernel, ?_⟩
  rintro ⟨a, h⟩
  cases h

/-- Finding against **C79**: the scheduler of a provider with an external emitter of type `UNSAFE_SINGLE` and a subscriber: its functions are never run. -/
theorem C79_violation_single_external_scheduler :
    (run 1 false (started .single : St Nat Nat) ([.getSubscriber "a" .safe, .getScheduler ""] ++ pub 0 1 "EVENTLOOP_SCHEDULER" (.fn 7) ++ deliver 0)).map
      (fun s => s.hist) = some [.sched "EVENTLOOP_SCHEDULER", .start "EVENTLOOP_SCHEDULER" (some (.fn 7)), .fin] ∧
    ¬ Conforms ([.sched "EVENTLOOP_SCHEDULER", .start "EVENTLOOP_SCHEDULER" (some (.fn 7)), .fin] : List (Ev (Msg Nat Nat))) := by
  refine ⟨by decide +kernel, ?_⟩
  rintro ⟨a, h⟩
  cases h

/-- Finding against **C79**: at a subscriber with an emitter of type `UNSAFE_SINGLE` the second listener is ignored. -/
theorem C79_violation_single_listener :
    (run 1 false (started .safe : St Nat Nat) ([.getSubscriber "a" .single, .getPublisher "a", .reg 0 "l0", .reg 0 "l1"] ++ pub 0 1 "a" (.ev 10) ++ deliver 1)).map
      (fun s => s.hist) = some [.reg "a" "l0", .reg "a" "l1", .start "a" (some (.ev 10)), .call 0 (.ev 10) true, .fin] ∧
    ¬ Conforms ([.reg "a" "l0", .reg "a" "l1", .start "a" (some (.ev 10)), .call 0 (.ev 10) true, .fin] : List (Ev (Msg Nat Nat))) := by
  refine ⟨by decide +kernel, ?_⟩
  rintro ⟨a, h⟩
  cases h

/-- Finding against **C79**: and removing the ignored listener removes the first one. -/
theorem C79_violation_single_listener_removed :
    (run 1 false (started .safe : St Nat Nat) ([.getSubscriber "a" .single, .getPublisher "a", .reg 0 "l0", .reg 0 "l1", .rem 0 "l1"] ++ pub 0 1 "a" (.ev 10) ++ deliver 0)).map
      (fun s => s.hist) = some [.reg "a" "l0", .reg "a" "l1", .rem "a" "l1", .start "a" (some (.ev 10)), .fin] ∧
    ¬ Conforms ([.reg "a" "l0", .reg "a" "l1", .rem "a" "l1", .start "a" (some (.ev 10)), .fin] : List (Ev (Msg Nat Nat))) := by
  refine ⟨by decide +kernel, ?_⟩
  rintro ⟨a, h⟩
  cases h

/-- Finding against **C79**: a name registered twice: both listeners are called, and after the removal of the name the first one still is; it can not be removed. -/
theorem C79_violation_name_twice :
    (run 1 false (started .safe : St Nat Nat) ([.getSubscriber "a" .safe, .getPublisher "a", .reg 0 "l", .reg 0 "l", .rem 0 "l"] ++ pub 0 1 "a" (.ev 10) ++ deliver 1 ++
      [.rem 0 "l"] ++ pub 0 1 "a" (.ev 11) ++ deliver 1)).map
      (fun s => s.hist) = some [.reg "a" "l", .reg "a" "l", .rem "a" "l", .start "a" (some (.ev 10)), .call 0 (.ev 10) true, .fin,
        .rem "a" "l", .start "a" (some (.ev 11)), .call 0 (.ev 11) true, .fin] ∧
    ¬ Conforms ([.reg "a" "l", .reg "a" "l", .rem "a" "l", .start "a" (some (.ev 10)), .call 0 (.ev 10) true, .fin] : List (Ev (Msg Nat Nat))) := by
  refine ⟨by decide +kernel, ?_⟩
  rintro ⟨a, h⟩
  cases h

/-- Finding against **C79**: a scheduler with the name of a topic in use: the subscriber of the topic is destroyed although users have its address, its listeners
get nothing any more, and the next event of the topic is taken for a function. -/
theorem C79_violation_scheduler_takes_topic :
    (run 1 false (started .safe : St Nat Nat) ([.getSubscriber "a" .safe, .getPublisher "a", .reg 0 "l0", .getScheduler "a", .reg 0 "l1"] ++ pub 0 1 "a" (.ev 10) ++
      [.loop .look, .loop .scan, .loop .scan, .loop .advance])).map
      (fun s => (s.hist, (targets s "a").map (·.2.cb))) = some ([.reg "a" "l0", .sched "a", .bad, .bad, .start "a" (some (.ev 10)), .bad], [1]) := by decide +kernel

/-- Finding against **C79**: a publisher of events obtained for the topic of the scheduler is the publisher of functions. -/
theorem C79_violation_publisher_of_scheduler :
    (run 1 false (started .safe : St Nat Nat) [.getScheduler "", .getPublisher "EVENTLOOP_SCHEDULER"]).map (fun s => s.hist) = some [.sched "EVENTLOOP_SCHEDULER", .bad] := by
  decide +kernel

end Verif.ElD
