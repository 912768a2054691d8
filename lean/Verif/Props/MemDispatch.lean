import Verif.Lemmas.MemDispatchMdlw
import Verif.Props.ElDispatch

/-!
C81: the way of events from the publishers of an in-memory middleware to the listeners of its subscriber.
The specification is in Spec/MemDispatch.lean and Spec/ElDispatch.lean.
-/

namespace Verif.MemD
open Verif ElD

variable {D : Type} [DecidableEq D]

def Mdlw.emitted : (m : Mdlw) → (m.chan D).σ → List D
  | .basic .., s => (MemP.St.bm s).emitted
  | .concurrent _, s => (CqP.St.cq s).emitted

def Mdlw.hand : (m : Mdlw) → (m.chan D).σ → List D
  | .basic .., s => (MemP.St.bm s).hand
  | .concurrent _, s => (CqP.St.cq s).hand

omit [DecidableEq D] in
theorem Mdlw.lawful (m : Mdlw) : Lawful (m.chan D) m.emitted := by
  cases m with
  | basic d n => exact lawful_basic d n
  | concurrent d => exact lawful_concurrent d

omit [DecidableEq D] in
theorem Mdlw.flow (m : Mdlw) {s : (m.chan D).σ} (h : ChReach (m.chan D) s) :
    m.accepted s = (m.gone s).map (·.1) ++ m.queued s ∧ m.emitted s ++ m.hand s = m.passed s ∧ (m.hand s).length ≤ 1 ∧ (m.chan D).hand s = (m.hand s).head? ∧
    (m.discards = false → m.emitted s ++ m.hand s ++ m.queued s = m.accepted s) := by
  cases m with
  | basic d n =>
    obtain ⟨h1, h2, h3, _, h4⟩ := MemP.C75_flow (ChReach.basic h)
    exact ⟨h1, h2, h3, rfl, h4⟩
  | concurrent d =>
    obtain ⟨h1, h2, h3, _, h4⟩ := CqP.C77_flow (ChReach.concurrent h)
    refine ⟨?_, ?_, h3, rfl, fun hd => (h4 hd).symm⟩
    · simp only [accepted, gone, queued, List.map_map]; exact h1
    · simp only [emitted, hand, passed, gone]
      rw [← h2, List.filter_map, List.map_map]
      rfl

/-- **C81**: for both middlewares, blocking or discarding, and for every type of emitter, with or without a container, every history of registrations, removals,
deliveries and calls, under any interleaving of publishers, users and the poller, with restarts, is one that the specification allows: for every event the poller
takes up, exactly the listeners registered at that time are called, each once, in the order of registration, with that event, before the next event; a once
listener that has returned is gone; an exception ends the delivery of that event.

Missing: the conditions `Ok` (a listener name is not registered twice, an emitter of type `UNSAFE_SINGLE` gets one listener): see the violations below. -/
theorem C81_dispatch_partial (m : Mdlw) {n : String} {c : Bool} {kind : Kind} {s : St (m.chan D)} (h : Reach n c kind s) : Conforms s.hist := by
  obtain ⟨a, _, h1, _⟩ := h.inv m.lawful
  exact ⟨a, h1⟩

omit [DecidableEq D] in
/-- Only events of the provider's name are taken up, and there are no functions. -/
theorem Reach.names {C : Chan D} {n : String} {c : Bool} {kind : Kind} {s : St C} (h : Reach n c kind s) : ∀ e ∈ s.hist,
    (∀ n' m, e = .start n' m → n' = n ∧ ∃ d, m = some (.ev d)) := by
  induction h with
  | init => nofun
  | @step s s' x _ hok hs ih =>
    intro e he n' m hem
    subst hem
    cases x <;> simp only [MemD.step, thrown] at hs <;> (repeat' split at hs) <;>
      first
      | (cases hs; done)
      | (cases hs; first | exact ih _ he n' m rfl | skip)
      | (obtain ⟨ch, hc, rfl⟩ := Option.map_eq_some_iff.mp hs)
    all_goals first
      | exact ih _ he n' m rfl
      | (rcases List.mem_append.mp he with he | he
         · exact ih _ he n' m rfl
         · simp at he; done)
      | (rcases List.mem_append.mp he with he | he
         · exact ih _ he n' m rfl
         · simp only [List.mem_singleton, Ev.start.injEq, reduceCtorEq] at he
           obtain ⟨rfl, rfl⟩ := he
           exact ⟨rfl, _, rfl⟩)

omit [DecidableEq D] in
theorem eventsOn_taken {n : String} {h : List (Event D)} (hn : ∀ e ∈ h, ∀ n' m, e = .start n' m → n' = n ∧ ∃ d, m = some (.ev d)) :
    eventsOn n h = (takenUp h).map .ev := by
  induction h with
  | nil => rfl
  | cons e h ih =>
    have := ih fun e he => hn e (List.mem_cons_of_mem _ he)
    rw [eventsOn_cons, show e :: h = [e] ++ h from rfl, takenUp_append, List.map_append, this]
    congr 1
    cases e with
    | start n' m =>
      obtain ⟨rfl, d, rfl⟩ := hn _ List.mem_cons_self n' m rfl
      simp [eventsOn, takenUp]
    | _ => rfl

omit [DecidableEq D] in
theorem callsOf_gets (no : Nat) (h : List (Event D)) : callsOf no h = (gets no h).map .ev := by
  simp only [callsOf, gets, List.map_filterMap]
  apply List.filterMap_congr
  intro e _
  match e with
  | .call no' (.ev d) r => by_cases hh : no' = no <;> simp [hh]
  | .call no' (.fn f) r => exact f.elim
  | .reg .. | .once _ | .rem .. | .sched _ | .start .. | .fin | .bad => rfl

omit [DecidableEq D] in
theorem ev_inj {l l' : List D} (h : l.map (Msg.ev (F := Empty)) = l'.map .ev) : l = l' :=
  (List.map_inj_right (fun _ _ e => by cases e; rfl)).mp h

omit [DecidableEq D] in
theorem evs (l : List (Msg D Empty)) : ∃ r : List D, l = r.map .ev ∧ r.length = l.length := by
  induction l with
  | nil => exact ⟨[], rfl, rfl⟩
  | cons m l ih =>
    obtain ⟨r, h1, h2⟩ := ih
    match m with
    | .ev d => exact ⟨d :: r, by rw [h1]; rfl, by simp [h2]⟩
    | .fn f => exact f.elim

/-- **C81**: the events taken up are the accepted ones that no publisher has discarded, in the order of acceptance, with at most one (`r`) that the poller has just
taken from the queue; a blocking middleware loses none. -/
theorem C81_taken_up_in_order (m : Mdlw) {n : String} {c : Bool} {kind : Kind} {s : St (m.chan D)} (h : Reach n c kind s) :
    m.accepted s.ch = (m.gone s.ch).map (·.1) ++ m.queued s.ch ∧
    ∃ r, takenUp s.hist ++ r = m.passed s.ch ∧ r.length ≤ 1 ∧ (s.del.isSome → r = []) ∧
      (m.discards = false → takenUp s.hist ++ r ++ m.queued s.ch = m.accepted s.ch) := by
  obtain ⟨h1, h2, h3, h4, h5⟩ := m.flow h.ch
  refine ⟨h1, ?_⟩
  obtain ⟨a, ls, _, hi⟩ := h.inv m.lawful
  have ht := hi.taken
  match hd : s.del with
  | none =>
    rw [hd] at ht
    simp only [Option.map_none, Option.toList_none, List.append_nil] at ht
    exact ⟨m.hand s.ch, by rw [ht]; exact h2, h3, nofun, fun hx => by rw [ht]; exact h5 hx⟩
  | some (d, todo) =>
    rw [hd] at ht
    have hh := (hi.hand d todo hd).1
    rw [h4] at hh
    have hhand : m.hand s.ch = [d] := by
      match hm : m.hand s.ch with
      | [] => rw [hm] at hh; cases hh
      | [x] => rw [hm] at hh; cases hh; rfl
      | x :: y :: l => rw [hm] at h3; simp at h3
    have ht : takenUp s.hist = m.emitted s.ch ++ m.hand s.ch := by rw [ht, hhand]; rfl
    exact ⟨[], by rw [ht, List.append_nil]; exact h2, by simp, fun _ => rfl, fun hx => by rw [ht, List.append_nil]; exact h5 hx⟩

omit [DecidableEq D] in
theorem pend_none {C : Chan D} {emitted : C.σ → List D} {n : String} {s : St C} {a : Abs (Msg D Empty)} {ls : List Lst} (hi : Inv emitted n s a ls) (hd : s.del = none)
    (no : Nat) : pend no a = [] := by
  have := hi.cur
  rw [hd] at this
  cases hc : a.cur with
  | none => simp [pend, hc]
  | some y => rw [hc] at this; exact this.elim

/-- **C81**: a named listener is called with exactly the events taken up after its registration, each once, in order, as long as it is not removed and no listener
throws.  `r` is the event of a delivery under way. -/
theorem C81_named_listener_gets_all (m : Mdlw) {n : String} {c : Bool} {kind : Kind} {s : St (m.chan D)} (h : Reach n c kind s) {h1 h2 : List (Event D)} {l : String}
    (hh : s.hist = h1 ++ .reg n l :: h2) (hnt : NoThrow h2) (hrem : .rem n l ∉ h2) :
    ∃ r, gets (regs h1) s.hist ++ r = takenUp h2 ∧ r.length ≤ 1 ∧ (s.del = none → r = []) := by
  obtain ⟨a', ls, hr, hi⟩ := h.inv m.lawful
  have hnm := h.names
  rw [hh] at hr
  have := hist_named hr hnt hrem
  rw [← hh, callsOf_gets, eventsOn_taken (n := n) (fun e he => hnm e (by rw [hh]; simp [he]))] at this
  obtain ⟨r, e1, e2⟩ := evs (pend (regs h1) a')
  rw [e1, ← List.map_append] at this
  exact ⟨r, ev_inj this, by rw [e2]; exact pend_le _ _, fun hd => by
    rw [pend_none hi hd] at e2
    exact List.eq_nil_of_length_eq_zero e2⟩

/-- **C81**: a once listener is called with the first event that is taken up after its registration, and never again. -/
theorem C81_once_listener_called_once (m : Mdlw) {n : String} {c : Bool} {kind : Kind} {s : St (m.chan D)} (h : Reach n c kind s) {h1 h2 : List (Event D)}
    (hh : s.hist = h1 ++ .once n :: h2) (hnt : NoThrow h2) :
    ∃ r, gets (regs h1) s.hist ++ r = (takenUp h2).take 1 ∧ (s.del = none → r = []) := by
  obtain ⟨a', ls, hr, hi⟩ := h.inv m.lawful
  have hnm := h.names
  rw [hh] at hr
  have := hist_once hr hnt
  rw [← hh, callsOf_gets, eventsOn_taken (n := n) (fun e he => hnm e (by rw [hh]; simp [he])), ← List.map_take] at this
  obtain ⟨r, e1, e2⟩ := evs (pend (regs h1) a')
  rw [e1, ← List.map_append] at this
  exact ⟨r, ev_inj this, fun hd => by
    rw [pend_none hi hd] at e2
    exact List.eq_nil_of_length_eq_zero e2⟩

/-- **C81**: with exceptions and removals too, a listener is only ever called with events taken up after its registration, in order and not twice with the same. -/
theorem C81_in_order (m : Mdlw) {n : String} {c : Bool} {kind : Kind} {s : St (m.chan D)} (h : Reach n c kind s) {h1 h2 : List (Event D)} {e : Event D}
    (he : (∃ l, e = .reg n l) ∨ e = .once n) (hh : s.hist = h1 ++ e :: h2) : (gets (regs h1) s.hist).Sublist (takenUp h2) := by
  obtain ⟨a', ls, hr, hi⟩ := h.inv m.lawful
  have hnm := h.names
  rw [hh] at hr
  have := hist_sub (n := n) (by tauto) hr
  rw [← hh, callsOf_gets, eventsOn_taken (n := n) (fun e he => hnm e (by rw [hh]; simp [he]))] at this
  obtain ⟨l', h1', h2'⟩ := List.sublist_map_iff.mp this
  rw [ev_inj h2']
  exact h1'

/-- **C81**: after its removal a named listener is not called for any event taken up later, and at most once more for the delivery under way. -/
theorem C81_removed_not_called (m : Mdlw) {n : String} {c : Bool} {kind : Kind} {s : St (m.chan D)} (h : Reach n c kind s) {h1 h2 h3 : List (Event D)} {l : String}
    (hh : s.hist = h1 ++ .reg n l :: (h2 ++ .rem n l :: h3)) :
    (gets (regs h1) h3).length ≤ 1 ∧ ∀ h4 n' x h5, h3 = h4 ++ .start n' x :: h5 → gets (regs h1) h5 = [] := by
  obtain ⟨a', ls, hr, hi⟩ := h.inv m.lawful
  rw [hh] at hr
  obtain ⟨g1, g2⟩ := hist_removed hr
  rw [callsOf_gets, List.length_map] at g1
  refine ⟨g1, fun h4 n' x h5 e => ?_⟩
  have := g2 h4 n' x h5 e
  rw [callsOf_gets, List.map_eq_nil_iff] at this
  exact this

/-- **C81**, from publisher to listener: a listener is called with exactly the accepted events that no publisher has discarded, from the first one taken up after its
registration on, each once, in the order of acceptance; `r`: one event more is on its way.  In a blocking middleware these are all events accepted, from the first one
taken up after the registration to those still in the queue. -/
theorem C81_end_to_end (m : Mdlw) {n : String} {c : Bool} {kind : Kind} {s : St (m.chan D)} (h : Reach n c kind s) {h1 h2 : List (Event D)} {l : String}
    (hh : s.hist = h1 ++ .reg n l :: h2) (hnt : NoThrow h2) (hrem : .rem n l ∉ h2) :
    ∃ r, gets (regs h1) s.hist ++ r = (m.passed s.ch).drop (takenUp h1).length ∧ r.length ≤ 1 ∧
      (m.discards = false → gets (regs h1) s.hist ++ r ++ m.queued s.ch = (m.accepted s.ch).drop (takenUp h1).length) := by
  obtain ⟨r1, e1, e2, e3⟩ := C81_named_listener_gets_all m h hh hnt hrem
  obtain ⟨_, r2, f1, f2, f3, f4⟩ := C81_taken_up_in_order m h
  have ht : takenUp s.hist = takenUp h1 ++ takenUp h2 := by
    rw [hh, takenUp_append]; rfl
  have main : gets (regs h1) s.hist ++ (r1 ++ r2) = takenUp h2 ++ r2 := by rw [← List.append_assoc, e1]
  refine ⟨r1 ++ r2, ?_, ?_, fun hd => ?_⟩
  · rw [main, ← f1, ht, List.append_assoc, List.drop_left]
  · match hdel : s.del with
    | none => rw [e3 hdel]; simpa using f2
    | some x => rw [f3 (by rw [hdel]; rfl)]; simpa using e2
  · rw [main, ← f4 hd, ht, List.append_assoc (takenUp h1), List.append_assoc (takenUp h1), List.drop_left]

/-- **C81**: a delivery under way comes to its end when the listeners return. -/
theorem C81_delivery_completes (m : Mdlw) {n : String} {c : Bool} {kind : Kind} {s : St (m.chan D)} (h : Reach n c kind s) (hd : s.del.isSome) :
    ∃ j s', run n c s (List.replicate j (.call true) ++ [.fin]) = some s' ∧ s'.del = none := by
  obtain ⟨a, ls, hr, hi⟩ := h.inv m.lawful
  clear h hr
  have : ∀ (todo : List Handler) (s : St (m.chan D)) (a : Abs (Msg D Empty)) (ls : List Lst) (d : D), Inv m.emitted n s a ls → s.del = some (d, todo) →
      ∃ j s', run n c s (List.replicate j (.call true) ++ [.fin]) = some s' ∧ s'.del = none := by
    intro todo
    induction todo with
    | nil =>
      intro s a ls d hi hd
      obtain ⟨g1, g2⟩ := hi.hand d _ hd
      obtain ⟨ch, hch⟩ := (m.lawful.can _ _ g2 g1).1
      exact ⟨0, { s with ch := ch, del := none, hist := s.hist ++ [.fin] }, by simp only [List.replicate, List.nil_append, run, step, hd, hch, Option.map_some], rfl⟩
    | cons t todo ih =>
      intro s a ls d hi hd
      have hcur := hi.cur
      rw [hd] at hcur
      match hc : a.cur with
      | none => rw [hc] at hcur; exact hcur.elim
      | some (n', x, ents) =>
        rw [hc] at hcur
        obtain ⟨_, _, h2, h3⟩ := hcur
        have : ∃ s1, step n c s (.call true) = some s1 ∧ s1.del = some (d, todo) := by
          simp only [step, hd]
          rw [if_neg (by simp)]
          split
          · rename_i ho
            cases h3 with
            | cons hte _ =>
              obtain ⟨x, x1, x2, x3, x4⟩ := hte.2.2.2 ho
              obtain ⟨em, he, _⟩ := hi.rep.remove c x1
              rw [x2] at he
              rw [he]
              exact ⟨_, rfl, rfl⟩
          · exact ⟨_, rfl, rfl⟩
        obtain ⟨s1, hs1, hd1⟩ := this
        obtain ⟨evs, a1, ls1, _, _, hi1⟩ := hi.call m.lawful hs1
        obtain ⟨j, s', hj, hj2⟩ := ih s1 a1 ls1 _ hi1 hd1
        exact ⟨j + 1, s', by simp only [List.replicate_succ, List.cons_append, run, hs1]; exact hj, hj2⟩
  obtain ⟨⟨d, todo⟩, hd⟩ := Option.isSome_iff_exists.mp hd
  exact this todo s a ls d hi hd

omit [DecidableEq D] in
/-- The loop that has ended only runs again after a restart. -/
theorem dead_step (m : Mdlw) {s s' : (m.chan D).σ} {a : (m.chan D).Act} (hr : ¬ m.restart (.ch a)) (hs : (m.chan D).step s a = some s')
    (hd : (m.chan D).alive s = false) : (m.chan D).alive s' = false := by
  cases m with
  | basic d n =>
    change MemP.step d s a = some s' at hs
    change MemP.St.alive s = false at hd
    change MemP.St.alive s' = false
    cases a with
    | bm b =>
      simp only [MemP.step] at hs
      (repeat' split at hs) <;> first | (cases hs; done) | (cases hs; exact hd)
    | throw => simp only [MemP.step, hd] at hs; cases hs
    | restart => exact absurd trivial hr
  | concurrent d =>
    change CqP.step d s a = some s' at hs
    change CqP.St.alive s = false at hd
    change CqP.St.alive s' = false
    cases a with
    | cq b =>
      simp only [CqP.step] at hs
      (repeat' split at hs) <;> first | (cases hs; done) | (cases hs; exact hd)
    | throw => simp only [CqP.step, hd] at hs; cases hs
    | restart => exact absurd trivial hr

omit [DecidableEq D] in
theorem throw_dead (m : Mdlw) {s s' : (m.chan D).σ} (hs : (m.chan D).step s (m.chan D).throw = some s') : (m.chan D).alive s' = false := by
  cases m with
  | basic d n =>
    change MemP.step d s .throw = some s' at hs
    simp only [MemP.step] at hs
    (repeat' split at hs) <;> first | (cases hs; done) | (cases hs; rfl)
  | concurrent d =>
    change CqP.step d s .throw = some s' at hs
    simp only [CqP.step] at hs
    (repeat' split at hs) <;> first | (cases hs; done) | (cases hs; rfl)

omit [DecidableEq D] in
/-- Finding against **C81**: after an exception of a listener the polling loop has ended; whatever happens, no event is taken up, for any listener, until the user
stops and starts the poller. -/
theorem C81_violation_exception_ends_delivery (m : Mdlw) {n : String} {c : Bool} {s s1 s2 : St (m.chan D)} (h1 : step n c s (.call false) = some s1)
    {as : List (Act (m.chan D))} (hr : ∀ a ∈ as, ¬ m.restart a) (h2 : run n c s1 as = some s2) :
    (m.chan D).alive s2.ch = false ∧ takenUp s2.hist = takenUp s1.hist := by
  have h3 : (m.chan D).alive s1.ch = false ∧ s1.del = none := by
    simp only [step, thrown] at h1
    split at h1
    · simp only [if_true] at h1
      obtain ⟨ch, hc, rfl⟩ := Option.map_eq_some_iff.mp h1
      exact ⟨throw_dead m hc, rfl⟩
    · cases h1
  have : (m.chan D).alive s2.ch = false ∧ s2.del = none ∧ takenUp s2.hist = takenUp s1.hist := by
    clear h1 s
    induction as generalizing s1 with
    | nil => cases h2; exact ⟨h3.1, h3.2, rfl⟩
    | cons a as ih =>
      simp only [run] at h2
      split at h2
      · cases h2
      · rename_i s' hs'
        have hra := hr a List.mem_cons_self
        have key : ((m.chan D).alive s'.ch = false ∧ s'.del = none) ∧ takenUp s'.hist = takenUp s1.hist := by
          cases a <;> simp only [step, thrown, h3.2, h3.1] at hs' <;> (repeat' split at hs') <;>
            first
            | (cases hs'; done)
            | (cases hs'; exact ⟨⟨h3.1, rfl⟩, by simp [takenUp]⟩)
            | (cases hs'; exact ⟨⟨h3.1, h3.2⟩, by simp [takenUp]⟩)
            | (obtain ⟨ch, hc, rfl⟩ := Option.map_eq_some_iff.mp hs'; exact ⟨⟨dead_step m hra hc h3.1, rfl⟩, rfl⟩)
            | (rename_i h; cases h; done)
        obtain ⟨g1, g2, g3⟩ := ih (fun a ha => hr a (List.mem_cons_of_mem _ ha)) h2 key.1
        exact ⟨g1, g2, g3.trans key.2⟩
  exact ⟨this.1, this.2.2⟩

/-! ### Concrete cases -/

/-- The conditions, checked, for a middleware used in a certain way (`use`). -/
def okB {C : Chan D} (use : C.Act → Bool) (s : St C) : Act C → Bool
  | .reg l => (s.map l).isNone && roomB s.em
  | .once => roomB s.em
  | .ch a => use a
  | _ => true

omit [DecidableEq D] in
theorem okB_ok {C : Chan D} {use : C.Act → Bool} {s : St C} (hm : C.may s.ch) {x : Act C} (h : okB use s x = true) : Ok s x := by
  cases x with
  | reg l =>
    simp only [okB, Bool.and_eq_true, Option.isNone_iff_eq_none] at h
    exact ⟨hm, h.1, roomB_iff _ h.2⟩
  | once => exact ⟨hm, roomB_iff _ h⟩
  | _ => exact hm

def runOk {C : Chan D} (use : C.Act → Bool) (n : String) (c : Bool) (s : St C) : List (Act C) → Option (St C)
  | [] => some s
  | x :: xs => if okB use s x then
      match step n c s x with
      | none => none
      | some s' => runOk use n c s' xs
    else none

omit [DecidableEq D] in
theorem Reach.of_runOk {C : Chan D} {use : C.Act → Bool} {P : C.σ → Prop} (hP : ∀ s, P s → C.may s)
    (hstep : ∀ s s' a, P s → (use a ∨ C.own a ∨ a = C.emit ∨ a = C.throw) → C.step s a = some s' → P s')
    {n : String} {c : Bool} {kind : Kind} {s s0 : St C} (xs : List (Act C))
    (h0 : Reach n c kind s0) (hp : P s0.ch) (h : runOk use n c s0 xs = some s) : Reach n c kind s := by
  induction xs generalizing s0 with
  | nil => cases h; exact h0
  | cons x xs ih =>
    simp only [runOk] at h
    split at h
    · rename_i hok
      split at h
      · cases h
      · rename_i s1 hs1
        refine ih (h0.step (okB_ok (hP _ hp) hok) hs1) ?_ h
        clear ih h
        cases x <;> simp only [MemD.step, thrown] at hs1 <;> (repeat' split at hs1) <;>
          first
          | (cases hs1; done)
          | (cases hs1; exact hp)
          | (obtain ⟨ch, hc, rfl⟩ := Option.map_eq_some_iff.mp hs1; first | exact hstep _ _ _ hp (Or.inl hok) hc | exact hstep _ _ _ hp (by simp) hc)
    · cases h

/-- A publication by thread `t`. -/
def bpub (d : Bool) (n t x : Nat) : List (Act (basic Nat d n)) := if d then [.ch (.bm (.publish t x 0)), .ch (.bm (.account t))] else [.ch (.bm (.publish t x 0))]

/-- The poller takes the next event, `j` listeners return. -/
def bdel (d : Bool) (n j : Nat) : List (Act (basic Nat d n)) := [.ch (.bm (.poll 1 0)), .take] ++ List.replicate j (.call true) ++ [.fin]

def bActs (d : Bool) : List (Act (basic Nat d 2)) := [.reg "l0", .once] ++ bpub d 2 1 10 ++ bpub d 2 2 11 ++ bdel d 2 2 ++ [.reg "l2"] ++ bpub d 2 1 12 ++ bdel d 2 2 ++
  [.rem "l0"] ++ bdel d 2 1

def exHist : List (Event Nat) := [.reg "e" "l0", .once "e", .start "e" (some (.ev 10)), .call 0 (.ev 10) true, .call 1 (.ev 10) true, .fin, .reg "e" "l2",
  .start "e" (some (.ev 11)), .call 0 (.ev 11) true, .call 2 (.ev 11) true, .fin, .rem "e" "l0", .start "e" (some (.ev 12)), .call 2 (.ev 12) true, .fin]

/-- The hypotheses are met by an execution of the basic middleware with a once listener, a listener registered between two events and a removal. -/
theorem C81_example_basic (d : Bool) : ∃ s : St ((Mdlw.basic d 2).chan Nat), Reach "e" true .safe s ∧ s.del = none ∧ s.hist = exHist ∧
    (Mdlw.basic d 2).accepted s.ch = [10, 11, 12] ∧ gets 0 s.hist = [10, 11] ∧ gets 1 s.hist = [10] ∧ gets 2 s.hist = [11, 12] := by
  have hx : (runOk (C := basic Nat d 2) (fun _ => true) "e" true (St.init _ .safe) (bActs d)).map
      (fun s => (s.del.isNone, s.hist, MemP.St.came s.ch)) = some (true, exHist, [10, 11, 12]) := by
    cases d <;> decide +kernel
  obtain ⟨s, hs, he⟩ := Option.map_eq_some_iff.mp hx
  simp only [Prod.mk.injEq, Option.isNone_iff_eq_none] at he
  obtain ⟨e1, e2, e3⟩ := he
  exact ⟨s, Reach.of_runOk (P := fun _ => True) (fun _ _ => trivial) (fun _ _ _ _ _ _ => trivial) _ .init trivial hs, e1, e2, e3,
    by rw [e2]; decide +kernel, by rw [e2]; decide +kernel, by rw [e2]; decide +kernel⟩

/-- Only thread 1 publishes. -/
def only1 : CqP.Act Nat → Bool
  | .cq (.publish t _) => t == 1
  | _ => true

def Only1 (s : CqP.St Nat) : Prop := ∀ u, u ≠ 1 → s.cq.pc u = .idle

theorem only1_step {d : Bool} {s s' : CqP.St Nat} {a : CqP.Act Nat} (h : Only1 s) (ha : only1 a = true) (hs : CqP.step d s a = some s') : Only1 s' := by
  cases CqP.step_eff hs with
  | throw _ _ _ e => subst e; exact h
  | restart _ _ e => subst e; exact h
  | cq b e hp hb hl =>
    subst e
    intro u hu
    have hu' := h u hu
    have other : ∀ t (p : CQ.Pc Nat), (u = t → s.cq.pc t = .idle → p = .idle) → upd s.cq.pc t p u = .idle := by
      intro t p ht
      by_cases e : u = t
      · subst e; rw [upd_same]; exact ht rfl hu'
      · rw [upd_other _ _ e]; exact hu'
    cases b <;> simp only [CQ.step] at hb <;> (repeat' split at hb) <;> first | (cases hb; done) | skip
    all_goals (injection hb with hb; rw [← hb]; try exact hu')
    all_goals (refine other _ _ fun e h => ?_)
    all_goals first
      | (subst e; simp only [only1, beq_iff_eq] at ha; exact absurd ha hu)
      | (simp_all; done)

def cpub (t x : Nat) : List (Act (concurrent Nat true)) := [.ch (.cq (.publish t x)), .ch (.cq (.enq t true)), .ch (.cq (.account t))]

def cdel (j : Nat) : List (Act (concurrent Nat true)) := [.ch (.cq (.poll true)), .take] ++ List.replicate j (.call true) ++ [.fin]

/-- The queue is full when 12 is published, and 10 is thrown away for it. -/
def cActs : List (Act (concurrent Nat true)) := [.reg "l0", .once] ++ cpub 1 10 ++ cpub 1 11 ++ [.ch (.cq (.publish 1 12)), .ch (.cq (.enq 1 false)),
  .ch (.cq (.rem 1 true)), .ch (.cq (.enq 1 true)), .ch (.cq (.account 1))] ++ cdel 2 ++ [.reg "l2"] ++ cdel 2

def cobs (s : CqP.St Nat) : List Nat × List (Nat × Bool) := (s.cq.published, s.cq.taken.map fun x => (x.2, x.1.isNone))

set_option synthInstance.maxSize 2000 in
/-- And by one of the concurrent middleware, with an event that is discarded. -/
theorem C81_example_concurrent : ∃ s : St ((Mdlw.concurrent true).chan Nat), Reach "e" false .safe s ∧ s.del = none ∧
    s.hist = [.reg "e" "l0", .once "e", .start "e" (some (.ev 11)), .call 0 (.ev 11) true, .call 1 (.ev 11) true, .fin, .reg "e" "l2",
      .start "e" (some (.ev 12)), .call 0 (.ev 12) true, .call 2 (.ev 12) true, .fin] ∧
    (Mdlw.concurrent true).accepted s.ch = [10, 11, 12] ∧ (Mdlw.concurrent true).gone s.ch = [(10, false), (11, true), (12, true)] := by
  have hx : (runOk (C := concurrent Nat true) only1 "e" false (St.init _ .safe) cActs).map
      (fun s => (s.del.isNone, s.hist, cobs s.ch)) = some (true, [.reg "e" "l0", .once "e", .start "e" (some (.ev 11)), .call 0 (.ev 11) true,
        .call 1 (.ev 11) true, .fin, .reg "e" "l2", .start "e" (some (.ev 12)), .call 0 (.ev 12) true, .call 2 (.ev 12) true, .fin], [10, 11, 12],
        [(10, false), (11, true), (12, true)]) := by
    decide +kernel
  obtain ⟨s, hs, he⟩ := Option.map_eq_some_iff.mp hx
  simp only [Prod.mk.injEq, Option.isNone_iff_eq_none, cobs] at he
  obtain ⟨e1, e2, e3, e4⟩ := he
  refine ⟨s, Reach.of_runOk (P := Only1) (fun s h => ?_) (fun s s' a h ha hs => ?_) _ .init (fun _ _ => rfl) hs, e1, e2, e3, e4⟩
  · exact CQ.C63_one_publisher_no_race (t := 1) h
  · refine only1_step h ?_ hs
    rcases ha with ha | ha | rfl | rfl
    · exact ha
    · match a with
      | .throw => rfl
      | .restart => rfl
      | .cq (.publish ..) => cases ha
      | .cq (.enq ..) | .cq (.rem ..) | .cq (.account ..) | .cq (.poll _) | .cq .emit => rfl
    · rfl
    · rfl

/-- A listener that throws: the one after it is not called with that event; after a restart the next event is delivered to both. -/
theorem C81_example_throw : ∃ s : St ((Mdlw.basic false 2).chan Nat), Reach "e" true .multi s ∧ s.del = none ∧
    s.hist = [.reg "e" "l0", .reg "e" "l1", .start "e" (some (.ev 10)), .call 0 (.ev 10) false, .start "e" (some (.ev 11)), .call 0 (.ev 11) true,
      .call 1 (.ev 11) true, .fin] := by
  have hx : (runOk (C := basic Nat false 2) (fun _ => true) "e" true (St.init _ .multi) ([.reg "l0", .reg "l1"] ++ bpub false 2 1 10 ++ bpub false 2 1 11 ++
      [.ch (.bm (.poll 1 0)), .take, .call false, .ch .restart] ++ bdel false 2 2)).map
      (fun s => (s.del.isNone, s.hist)) = some (true, [.reg "e" "l0", .reg "e" "l1", .start "e" (some (.ev 10)), .call 0 (.ev 10) false, .start "e" (some (.ev 11)),
        .call 0 (.ev 11) true, .call 1 (.ev 11) true, .fin]) := by decide +kernel
  obtain ⟨s, hs, he⟩ := Option.map_eq_some_iff.mp hx
  simp only [Prod.mk.injEq, Option.isNone_iff_eq_none] at he
  exact ⟨s, Reach.of_runOk (P := fun _ => True) (fun _ _ => trivial) (fun _ _ _ _ _ _ => trivial) _ .init trivial hs, he.1, he.2⟩

/-! ### Violations -/

/-- Finding against **C81**: a name registered twice: both listeners are called, and after the removal of the name the first one still is; it can not be removed. -/
theorem C81_violation_name_twice :
    (run "e" true (St.init (basic Nat false 2) .safe) ([.reg "l", .reg "l", .rem "l"] ++ bpub false 2 1 10 ++ bdel false 2 1 ++ [.rem "l"] ++ bpub false 2 1 11 ++ bdel false 2 1)).map
      (fun s => s.hist) = some [.reg "e" "l", .reg "e" "l", .rem "e" "l", .start "e" (some (.ev 10)), .call 0 (.ev 10) true, .fin,
        .rem "e" "l", .start "e" (some (.ev 11)), .call 0 (.ev 11) true, .fin] ∧
    ¬ Conforms ([.reg "e" "l", .reg "e" "l", .rem "e" "l", .start "e" (some (.ev 10)), .call 0 (.ev 10) true, .fin] : List (Event Nat)) := by
  refine ⟨by decide +kernel, ?_⟩
  rintro ⟨a, h⟩
  cases h

/-- Finding against **C81**: with an emitter of type `UNSAFE_SINGLE` the second listener is ignored. -/
theorem C81_violation_single_listener :
    (run "e" true (St.init (basic Nat false 2) .single) ([.reg "l0", .reg "l1"] ++ bpub false 2 1 10 ++ bdel false 2 1)).map
      (fun s => s.hist) = some [.reg "e" "l0", .reg "e" "l1", .start "e" (some (.ev 10)), .call 0 (.ev 10) true, .fin] ∧
    ¬ Conforms ([.reg "e" "l0", .reg "e" "l1", .start "e" (some (.ev 10)), .call 0 (.ev 10) true, .fin] : List (Event Nat)) := by
  refine ⟨by decide +kernel, ?_⟩
  rintro ⟨a, h⟩
  cases h

/-- The exception of `C81_violation_exception_ends_delivery` can be thrown while events are waiting: the second listener gets neither of them. -/
theorem C81_violation_exception_example :
    (run "e" true (St.init (basic Nat false 2) .safe) ([.reg "l0", .reg "l1"] ++ bpub false 2 1 10 ++ bpub false 2 1 11 ++
      [.ch (.bm (.poll 1 0)), .take, .call false])).map
      (fun s => (s.hist, (MemP.St.bm s.ch).sq.q, MemP.St.alive s.ch)) = some ([.reg "e" "l0", .reg "e" "l1", .start "e" (some (.ev 10)), .call 0 (.ev 10) false], [11], false) := by
  decide +kernel

end Verif.MemD
