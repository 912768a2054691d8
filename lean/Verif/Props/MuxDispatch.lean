import Verif.Lemmas.MuxDispatch

/-!
C87: the way of events from the publisher of a data multiplexer to the listeners of its subscribers.
The specification is in Spec/MuxDispatch.lean, Spec/MemDispatch.lean and Spec/ElDispatch.lean.

All theorems are about one subscriber `c`, created at any time of the life of a multiplexer of any size `2 ^ k`, whose publisher and other subscribers do what they like.
-/

namespace Verif.MuxD
open Verif Verif.Disr ElD MemD

variable {T : Type}

theorem Created.lawful {shared : Bool} {k : Nat} {v : T} {c : Nat} {s0 : Mux.St T} (h : Created shared k v c s0) : Lawful (chan shared k c s0) (emitted c) :=
  MuxD.lawful h.facts.2.1 h.facts.2.2.1

/-- **C87**: every history of registrations, removals, deliveries and calls of a subscriber, under any interleaving of the publisher, of the users of the
subscriber, of its processor and of all other subscribers, is one that the specification allows: for every event taken up exactly the listeners registered at that time are
called, each once, in the order of registration, with that event, before the next event; a once listener that has returned is gone; an exception ends the delivery
of that event, and of that event only.

Missing: the condition `Ok` (a listener name is not registered twice): see the violation below. -/
theorem C87_dispatch_partial {shared : Bool} {k : Nat} {v : T} {c : Nat} {s0 : Mux.St T} (h0 : Created shared k v c s0) {n : String} {ct : Bool} {s : Sub shared k c s0}
    (h : Reach n ct .safe s) : Conforms s.hist := by
  obtain ⟨a, _, h1, _⟩ := h.inv h0.lawful
  exact ⟨a, h1⟩

theorem newest_emitted {c : Nat} (s : Mux.St T) : newest c s = emitted c s ++ (hand c s).toList := by
  by_cases h : ∃ x, s.ring.cp c = .handle x x
  · obtain ⟨x, hx⟩ := h
    match hd : s.dl c with
    | [] => simp [newest, emitted, hand, hx, hd]
    | e :: l =>
      obtain ⟨h1, h2⟩ := emitted_hand hx hd
      rw [h1, h2]; rfl
  · have h : ∀ x, s.ring.cp c ≠ .handle x x := fun x hx => h ⟨x, hx⟩
    rw [hand_done h, emitted_done h]; simp

/-- **C87**: the events taken up are the last events of the batches the processor has read, in order, each once; `r`: one more is about to be taken up. -/
theorem C87_taken_up {shared : Bool} {k : Nat} {v : T} {c : Nat} {s0 : Mux.St T} (h0 : Created shared k v c s0) {n : String} {ct : Bool} {s : Sub shared k c s0}
    (h : Reach n ct .safe s) : ∃ r, takenUp s.hist ++ r = newest c (mux s) ∧ r.length ≤ 1 ∧ (s.del.isSome → r = []) ∧
      (∀ nx, (mux s).ring.cp c = .wait nx → r = []) := by
  obtain ⟨a, ls, _, hi⟩ := h.inv h0.lawful
  have ht : takenUp s.hist = emitted c (mux s) ++ (s.del.map (·.1)).toList := hi.taken
  match hd : s.del with
  | none =>
    rw [hd] at ht
    simp only [Option.map_none, Option.toList_none, List.append_nil] at ht
    refine ⟨(hand c (mux s)).toList, by rw [ht, newest_emitted], ?_, nofun, fun nx hw => ?_⟩
    · cases hand c (mux s) <;> simp
    · rw [hand_done (by rw [hw]; nofun)]; rfl
  | some (d, todo) =>
    rw [hd] at ht
    have hh : hand c (mux s) = some d := (hi.hand d todo hd).1
    exact ⟨[], by rw [ht, newest_emitted, hh]; simp, by simp, fun _ => rfl, fun _ _ => rfl⟩

/-- **C87**: a listener is called with exactly the events taken up after its registration, each once, in order, as long as it is not removed and no listener
throws.  `r` is the event of a delivery under way. -/
theorem C87_named_listener_gets_all {shared : Bool} {k : Nat} {v : T} {c : Nat} {s0 : Mux.St T} (h0 : Created shared k v c s0) {n : String} {ct : Bool} {s : Sub shared k c s0}
    (h : Reach n ct .safe s) {h1 h2 : List (Event Data)} {l : String} (hh : s.hist = h1 ++ .reg n l :: h2) (hnt : NoThrow h2) (hrem : .rem n l ∉ h2) :
    ∃ r, gets (regs h1) s.hist ++ r = takenUp h2 ∧ r.length ≤ 1 ∧ (s.del = none → r = []) := by
  obtain ⟨a', ls, hr, hi⟩ := h.inv h0.lawful
  have hnm := h.names
  rw [hh] at hr
  have := hist_named hr hnt hrem
  rw [← hh, callsOf_gets, eventsOn_taken (n := n) (fun e he => hnm e (by rw [hh]; simp [he]))] at this
  obtain ⟨r, e1, e2⟩ := evs (pend (regs h1) a')
  rw [e1, ← List.map_append] at this
  exact ⟨r, ev_inj this, by rw [e2]; exact pend_le _ _, fun hd => by
    rw [pend_none hi hd] at e2
    exact List.eq_nil_of_length_eq_zero e2⟩

/-- **C87**: a once listener is called with the first event that is taken up after its registration, and never again. -/
theorem C87_once_listener_called_once {shared : Bool} {k : Nat} {v : T} {c : Nat} {s0 : Mux.St T} (h0 : Created shared k v c s0) {n : String} {ct : Bool} {s : Sub shared k c s0}
    (h : Reach n ct .safe s) {h1 h2 : List (Event Data)} (hh : s.hist = h1 ++ .once n :: h2) (hnt : NoThrow h2) :
    ∃ r, gets (regs h1) s.hist ++ r = (takenUp h2).take 1 ∧ (s.del = none → r = []) := by
  obtain ⟨a', ls, hr, hi⟩ := h.inv h0.lawful
  have hnm := h.names
  rw [hh] at hr
  have := hist_once hr hnt
  rw [← hh, callsOf_gets, eventsOn_taken (n := n) (fun e he => hnm e (by rw [hh]; simp [he])), ← List.map_take] at this
  obtain ⟨r, e1, e2⟩ := evs (pend (regs h1) a')
  rw [e1, ← List.map_append] at this
  exact ⟨r, ev_inj this, fun hd => by
    rw [pend_none hi hd] at e2
    exact List.eq_nil_of_length_eq_zero e2⟩

/-- **C87**: after its removal a listener is not called for any event taken up later, and at most once more for the delivery under way. -/
theorem C87_removed_not_called {shared : Bool} {k : Nat} {v : T} {c : Nat} {s0 : Mux.St T} (h0 : Created shared k v c s0) {n : String} {ct : Bool} {s : Sub shared k c s0}
    (h : Reach n ct .safe s) {h1 h2 h3 : List (Event Data)} {l : String} (hh : s.hist = h1 ++ .reg n l :: (h2 ++ .rem n l :: h3)) :
    (gets (regs h1) h3).length ≤ 1 ∧ ∀ h4 n' x h5, h3 = h4 ++ .start n' x :: h5 → gets (regs h1) h5 = [] := by
  obtain ⟨a', ls, hr, hi⟩ := h.inv h0.lawful
  rw [hh] at hr
  obtain ⟨g1, g2⟩ := hist_removed hr
  rw [callsOf_gets, List.length_map] at g1
  refine ⟨g1, fun h4 n' x h5 e => ?_⟩
  have := g2 h4 n' x h5 e
  rw [callsOf_gets, List.map_eq_nil_iff] at this
  exact this

/-- With exceptions and removals too, a listener is only ever called with events taken up after its registration, in order and not twice with the same. -/
theorem gets_sub {shared : Bool} {k : Nat} {v : T} {c : Nat} {s0 : Mux.St T} (h0 : Created shared k v c s0) {n : String} {ct : Bool} {s : Sub shared k c s0}
    (h : Reach n ct .safe s) {h1 h2 : List (Event Data)} {e : Event Data} (he : (∃ l, e = .reg n l) ∨ e = .once n) (hh : s.hist = h1 ++ e :: h2) :
    (gets (regs h1) s.hist).Sublist (takenUp h2) := by
  obtain ⟨a', ls, hr, hi⟩ := h.inv h0.lawful
  have hnm := h.names
  rw [hh] at hr
  have := hist_sub (n := n) (by tauto) hr
  rw [← hh, callsOf_gets, eventsOn_taken (n := n) (fun e he => hnm e (by rw [hh]; simp [he]))] at this
  obtain ⟨l', h1', h2'⟩ := List.sublist_map_iff.mp this
  rw [ev_inj h2']
  exact h1'

theorem newest_sorted {shared : Bool} {k : Nat} (hk : k ≤ 30) {v : T} {c : Nat} {s : Mux.St T} (h : Mux.Reach shared k (fun _ => True) v s) (hc : c ∈ s.ring.gating) :
    ((newest c s).map (·.1)).Pairwise (· < ·) ∧ ∀ d ∈ newest c s, s.ring.base c < d.1 ∧ d.1 ≤ s.ring.cursor := by
  obtain ⟨h1, h2, _⟩ := Mux.C28_subsequence_in_order hk h hc
  refine ⟨?_, fun d hd => ?_⟩
  · have : (newest c s).map (·.1) = (s.dl c).reverse.map (·.1) := by simp [newest]
    rw [this]; exact h1
  · simp only [newest, List.mem_map, List.mem_reverse] at hd
    obtain ⟨e, he, rfl⟩ := hd
    exact h2 e he

theorem taken_prefix {shared : Bool} {k : Nat} {v : T} {c : Nat} {s0 : Mux.St T} (h0 : Created shared k v c s0) {n : String} {ct : Bool} {s : Sub shared k c s0}
    (h : Reach n ct .safe s) : (takenUp s.hist).Sublist (newest c (mux s)) := by
  obtain ⟨r, h1, _⟩ := C87_taken_up h0 h
  rw [← h1]
  exact List.sublist_append_left _ _

/-- **C87**: what a listener is called with, with exceptions and removals too: events published after the subscriber was created, in the order of publication, none
twice. -/
theorem C87_in_order {shared : Bool} {k : Nat} (hk : k ≤ 30) {v : T} {c : Nat} {s0 : Mux.St T} (h0 : Created shared k v c s0) {n : String} {ct : Bool} {s : Sub shared k c s0}
    (h : Reach n ct .safe s) {h1 h2 : List (Event Data)} {e : Event Data} (he : (∃ l, e = .reg n l) ∨ e = .once n) (hh : s.hist = h1 ++ e :: h2) :
    ((gets (regs h1) s.hist).map (·.1)).Pairwise (· < ·) ∧
    ∀ d ∈ gets (regs h1) s.hist, s0.ring.cursor < d.1 ∧ d.1 ≤ (mux s).ring.cursor := by
  obtain ⟨g1, g2, g3⟩ := ch_facts hk h0 (s := mux s) h.ch
  obtain ⟨n1, n2⟩ := newest_sorted hk g1 g2
  have sub : (gets (regs h1) s.hist).Sublist (newest c (mux s)) := by
    refine (gets_sub h0 h he hh).trans (.trans ?_ (taken_prefix h0 h))
    rw [hh, takenUp_append]
    refine List.Sublist.trans ?_ (List.sublist_append_right _ _)
    rw [show e :: h2 = [e] ++ h2 from rfl, takenUp_append]
    exact List.sublist_append_right _ _
  exact ⟨n1.sublist (sub.map _), fun d hd => by rw [← g3]; exact n2 d (sub.subset hd)⟩

/-- **C87**: whenever a listener is called, what it reads through its pointer is what was published, for every way of publishing, as long as the provider has no model
event: while the delivery is under way the object is not written, whatever the publisher does.

Missing: providers with a model event (`C29_violation_model_event_shared`). -/
theorem C87_listener_reads_what_was_published_partial {k : Nat} (hk : k ≤ 30) {v : T} {c : Nat} {s0 : Mux.St T} (h0 : Created false k v c s0) {n : String} {ct : Bool}
    {s : Sub false k c s0} (h : Reach n ct .safe s) {d : Data} {todo : List Handler} (hd : s.del = some (d, todo)) :
    (mux s).content d.1 = some ((mux s).heap d.2) := by
  obtain ⟨a, ls, _, hi⟩ := h.inv h0.lawful
  have hh : hand c (mux s) = some d := (hi.hand d todo hd).1
  obtain ⟨x, e, l, h1, h2, rfl⟩ := hand_some hh
  obtain ⟨g1, g2, _⟩ := ch_facts hk h0 (s := mux s) h.ch
  have hcons := (g1.ring.inv hk).cons c g2
  rw [h1] at hcons
  simp only [SRing.CInv] at hcons
  have hov := (g1.ring.inv hk).over c g2
  have hl := g1.logInv hk c g2
  -- the newest handled event is the one being handled
  have hx : e.1 = x := by
    have hhd := hl.head
    simp only [Mux.HeadInv, h1] at hhd
    obtain ⟨l', hl'⟩ := hhd
    have := hl.dl
    rw [h2, hl'] at this
    simp at this
    exact this.1
  obtain ⟨x', o, t⟩ := e
  simp only at hx
  subst hx
  have hmem : (x', o, t) ∈ (mux s).dl c := by rw [h2]; exact List.mem_cons_self
  have e1 := (Mux.C28_subsequence_in_order hk g1 g2).2.2 rfl _ hmem
  have e2 := Mux.C29_held_until_wrap_partial hk g1 g2 hmem (by omega)
  show (mux s).content x' = some ((mux s).heap o)
  rw [e2]; exact e1

/-- **C87**, accounting: for a subscriber, the events given to its listeners, the events counted as discarded, and the ones it has still to read (`left`) are together the events
published since its creation; a listener gets those taken up since its registration. -/
theorem C87_accounting {shared : Bool} {k : Nat} (hk : k ≤ 30) {v : T} {c : Nat} {s0 : Mux.St T} (h0 : Created shared k v c s0) {n : String} {ct : Bool} {s : Sub shared k c s0}
    (h : Reach n ct .safe s) : ∃ r left : Nat, r ≤ 1 ∧
      (((takenUp s.hist).length + r + (mux s).dc c + left : Nat) : Int) = (mux s).ring.cursor - s0.ring.cursor ∧
      (Quiet c (mux s) → r = 0 ∧ left = 0) ∧
      ∀ h1 l h2, s.hist = h1 ++ .reg n l :: h2 → NoThrow h2 → .rem n l ∉ h2 → s.del = none →
        (gets (regs h1) s.hist).length + (takenUp h1).length = (takenUp s.hist).length := by
  obtain ⟨g1, g2, g3⟩ := ch_facts hk h0 (s := mux s) h.ch
  obtain ⟨left, a1, _, a3⟩ := Mux.C28_accounting hk g1 g2
  obtain ⟨r, b1, b2, b3, b4⟩ := C87_taken_up h0 h
  have hlen := congrArg List.length b1
  simp only [newest, List.length_append, List.length_map, List.length_reverse] at hlen
  refine ⟨r.length, left, b2, by rw [← g3, ← a1, ← hlen]; push_cast; omega, ?_, ?_⟩
  · rintro ⟨nx, q1, q2⟩
    exact ⟨by rw [b4 nx q1]; rfl, a3 nx q1 q2⟩
  · intro h1 l h2 hh hnt hrem hd
    obtain ⟨r', c1, _, c3⟩ := C87_named_listener_gets_all h0 h hh hnt hrem
    rw [c3 hd, List.append_nil] at c1
    rw [c1, hh, takenUp_append, List.length_append, Nat.add_comm]
    rfl

theorem After.reach {n : String} {ct : Bool} {shared : Bool} {k c : Nat} {s0 : Mux.St T} {s1 s : Sub shared k c s0} (h : After n ct s1 s) (h1 : Reach n ct .safe s1) :
    Reach n ct .safe s := by
  induction h with
  | refl => exact h1
  | step _ hok hs ih => exact ih.step hok hs

/-- **C87**: nobody is left behind.  When the publisher has published something after the registration of a listener and the subscriber has read everything, the last call of that listener
was with the newest event published; that is so for every listener of the subscriber. -/
theorem C87_every_listener_up_to_date {shared : Bool} {k : Nat} (hk : k ≤ 30) {v : T} {c : Nat} {s0 : Mux.St T} (h0 : Created shared k v c s0) {n : String} {ct : Bool}
    {s1 s : Sub shared k c s0} (h1 : Reach n ct .safe s1) (h2 : After n ct s1 s) {l : String} {h' : List (Event Data)}
    (hh : s.hist = s1.hist ++ .reg n l :: h') (hnt : NoThrow h') (hrem : .rem n l ∉ h')
    (hq : Quiet c (mux s)) (hd : s.del = none) (hnew : (mux s1).ring.cursor < (mux s).ring.cursor) :
    ∃ o, (gets (regs s1.hist) s.hist).getLast? = some ((mux s).ring.cursor, o) := by
  have h := h2.reach h1
  obtain ⟨nx, q1, q2⟩ := hq
  obtain ⟨g1, g2, g3⟩ := ch_facts hk h0 (s := mux s) h.ch
  obtain ⟨f1, f2, f3⟩ := ch_facts hk h0 (s := mux s1) h1.ch
  obtain ⟨r, b1, b2, b3, b4⟩ := C87_taken_up h0 h
  rw [b4 nx q1, List.append_nil] at b1
  obtain ⟨r', c1, _, c3⟩ := C87_named_listener_gets_all h0 h hh hnt hrem
  rw [c3 hd, List.append_nil] at c1
  have hcons := (g1.ring.inv hk).cons c g2
  have hle := (g1.ring.inv hk).seq_le c g2
  rw [q1] at hcons
  simp only [SRing.CInv] at hcons
  have hseq : (mux s).ring.seq c = (mux s).ring.cursor := by omega
  have hbase := (f1.ring.inv hk).seq_le c f2
  obtain ⟨m, m1, m2, m3, _⟩ := SRing.C25_single_in_order_exactly_once hk f1.ring f2
  have hb : s0.ring.cursor ≤ (mux s1).ring.cursor := by omega
  rcases Mux.C28_batch_ends_with_newest hk g1 g2 (.inl ⟨nx, q1⟩) with ⟨e1, e2⟩ | ⟨e1, o, t, l', e2⟩
  · obtain ⟨left, a1, _, a3⟩ := Mux.C28_accounting hk g1 g2
    have := a3 nx q1 q2
    rw [e1, e2, this] at a1
    simp at a1
    omega
  · refine ⟨o, ?_⟩
    rw [c1]
    have hn : takenUp s1.hist ++ takenUp h' = newest c (mux s) := by
      rw [← b1, hh, takenUp_append]; rfl
    have hlast : (newest c (mux s)).getLast? = some ((mux s).ring.cursor, o) := by
      simp [newest, e2, hseq]
    rw [← hn, List.getLast?_append] at hlast
    match hl : (takenUp h').getLast? with
    | some d => rw [hl] at hlast; simpa using hlast
    | none =>
      exfalso
      rw [hl] at hlast
      simp only [Option.none_or] at hlast
      have hm := List.mem_of_getLast? hlast
      have := (newest_sorted hk f1 f2).2 _ ((taken_prefix h0 h1).subset hm)
      simp only at this
      omega

/-- **C87**: a delivery under way comes to its end when the listeners return. -/
theorem C87_delivery_completes {shared : Bool} {k : Nat} {v : T} {c : Nat} {s0 : Mux.St T} (h0 : Created shared k v c s0) {n : String} {ct : Bool} {s : Sub shared k c s0}
    (h : Reach n ct .safe s) (hd : s.del.isSome) : ∃ j s', MemD.run n ct s (List.replicate j (.call true) ++ [.fin]) = some s' ∧ s'.del = none := by
  obtain ⟨a, ls, hr, hi⟩ := h.inv h0.lawful
  clear h hr
  have : ∀ (todo : List Handler) (s : Sub shared k c s0) (a : Abs (Msg Data Empty)) (ls : List Lst) (d : Data), Inv (emitted c) n s a ls → s.del = some (d, todo) →
      ∃ j s', MemD.run n ct s (List.replicate j (.call true) ++ [.fin]) = some s' ∧ s'.del = none := by
    intro todo
    induction todo with
    | nil =>
      intro s a ls d hi hd
      obtain ⟨g1, g2⟩ := hi.hand d _ hd
      obtain ⟨ch, hch⟩ := (h0.lawful.can _ _ g2 g1).1
      exact ⟨0, { s with ch := ch, del := none, hist := s.hist ++ [.fin] }, by simp only [List.replicate, List.nil_append, MemD.run, MemD.step, hd, hch, Option.map_some], rfl⟩
    | cons t todo ih =>
      intro s a ls d hi hd
      have hcur := hi.cur
      rw [hd] at hcur
      match hc : a.cur with
      | none => rw [hc] at hcur; exact hcur.elim
      | some (n', x, ents) =>
        rw [hc] at hcur
        obtain ⟨_, _, h2, h3⟩ := hcur
        have : ∃ s1, MemD.step n ct s (.call true) = some s1 ∧ s1.del = some (d, todo) := by
          simp only [MemD.step, hd]
          rw [if_neg (by simp)]
          split
          · rename_i ho
            cases h3 with
            | cons hte _ =>
              obtain ⟨x, x1, x2, x3, x4⟩ := hte.2.2.2 ho
              obtain ⟨em, he, _⟩ := hi.rep.remove ct x1
              rw [x2] at he
              rw [he]
              exact ⟨_, rfl, rfl⟩
          · exact ⟨_, rfl, rfl⟩
        obtain ⟨s1, hs1, hd1⟩ := this
        obtain ⟨evs, a1, ls1, _, _, hi1⟩ := hi.call h0.lawful hs1
        obtain ⟨j, s', hj, hj2⟩ := ih s1 a1 ls1 _ hi1 hd1
        exact ⟨j + 1, s', by simp only [List.replicate_succ, List.cons_append, MemD.run, hs1]; exact hj, hj2⟩
  obtain ⟨⟨d, todo⟩, hd⟩ := Option.isSome_iff_exists.mp hd
  exact this todo s a ls d hi hd

/-- **C87**: an exception of a listener costs that event only: the processor has stepped over it and waits for the next one, all listeners are still registered. -/
theorem C87_exception_costs_one_event {shared : Bool} {k : Nat} {c : Nat} {s0 : Mux.St T} {n : String} {ct : Bool}
    {s s' : Sub shared k c s0} {x : Int} (hcp : (mux s).ring.cp c = .handle x x)
    (hs : MemD.step n ct s (.call false) = some s') :
    (mux s').ring.cp c = .wait (x + 1) ∧ (mux s').ring.seq c = x ∧ s'.em = s.em ∧ s'.map = s.map ∧ s'.del = none := by
  simp only [MemD.step, MemD.thrown] at hs
  split at hs
  · simp only [if_true] at hs
    obtain ⟨ch, hc, rfl⟩ := Option.map_eq_some_iff.mp hs
    change chStep shared k c (mux s) .throw = some ch at hc
    simp only [chStep] at hc
    split at hc
    · simp only [Mux.step, Mux.lift] at hc
      split at hc
      · obtain ⟨r, hr, rfl⟩ := Option.map_eq_some_iff.mp hc
        simp only [SRing.step, hcp] at hr
        cases hr
        exact ⟨upd_same _ _ _, upd_same _ _ _, rfl, rfl, rfl⟩
      · cases hc
    · cases hc
  · cases hs

/-! ### Concrete cases -/

/-- `MemD.runOk` with nothing to check for the multiplexer, whose conditions are part of its steps. -/
theorem reach_of_run {shared : Bool} {k c : Nat} {s0 : Mux.St T} {n : String} {ct : Bool} {s : Sub shared k c s0} (xs : List (MemD.Act (chan shared k c s0)))
    (h : MemD.runOk (fun _ => true) n ct (MemD.St.init (chan shared k c s0) .safe) xs = some s) : Reach n ct .safe s :=
  Reach.of_runOk (P := fun _ => True) (fun _ _ => trivial) (fun _ _ _ _ _ _ => trivial) _ .init trivial h

theorem After.trans_of {n : String} {ct : Bool} {shared : Bool} {k c : Nat} {s0 : Mux.St T} {s s1 : Sub shared k c s0} (xs : List (MemD.Act (chan shared k c s0)))
    (h1 : After n ct s s1) {s2 : Sub shared k c s0} (h : MemD.runOk (fun _ => true) n ct s1 xs = some s2) : After n ct s s2 := by
  induction xs generalizing s1 with
  | nil => cases h; exact h1
  | cons x xs ih =>
    simp only [MemD.runOk] at h
    split at h
    · rename_i hok
      split at h
      · cases h
      · rename_i s3 hs3
        exact ih (h1.step (okB_ok (C := chan shared k c s0) trivial hok) hs3) h
    · cases h

theorem After.of_run {n : String} {ct : Bool} {shared : Bool} {k c : Nat} {s0 : Mux.St T} {s s2 : Sub shared k c s0} (xs : List (MemD.Act (chan shared k c s0)))
    (h : MemD.runOk (fun _ => true) n ct s xs = some s2) : After n ct s s2 := After.trans_of xs .refl h

/-- A ring with four slots after the creation of subscriber 0, another subscriber (1) being there before. -/
def ex0 : Mux.St Nat := ((Mux.run false 2 (Mux.St.init 0) [.subscribe 1, .run 1, .subscribe 0]).get (by decide +kernel))

theorem ex0_created : Created false 2 0 0 ex0 := by
  refine ⟨(Mux.run false 2 (Mux.St.init 0) [.subscribe 1, .run 1]).get (by decide +kernel), ?_, by decide +kernel, by decide +kernel, rfl⟩
  exact Mux.Reach.of_runOk [.subscribe 1, .run 1] .init rfl

def exPub (v : Nat) : List (MemD.Act (chan false 2 0 ex0)) := [.ch (.mux (.call (.inplace fun _ => v))), .ch (.mux .write), .ch (.mux .publish)]

/-- The processor reads a batch of `j + 1` events; `m` listeners return. -/
def exRead (j m : Nat) : List (MemD.Act (chan false 2 0 ex0)) :=
  [.ch (.mux (.look 0))] ++ (List.replicate j [.ch (.mux (.advance 0)), .ch .skip]).flatten ++ [.ch (.mux (.advance 0)), .take] ++ List.replicate m (.call true) ++
  [.fin, .ch (.mux (.advance 0))]

/-- Two listeners and a once listener; three events, the first two in one batch. -/
def exActs : List (MemD.Act (chan false 2 0 ex0)) := [.ch (.mux (.run 0)), .reg "l0", .once] ++ exPub 10 ++ exPub 11 ++ exRead 1 2 ++ [.reg "l2"] ++ exPub 12 ++ exRead 0 2

def exHist : List (Event Data) := [.reg "m" "l0", .once "m", .start "m" (some (.ev (1, .init 1))), .call 0 (.ev (1, .init 1)) true, .call 1 (.ev (1, .init 1)) true, .fin,
  .reg "m" "l2", .start "m" (some (.ev (2, .init 2))), .call 0 (.ev (2, .init 2)) true, .call 2 (.ev (2, .init 2)) true, .fin]

def obs (s : Mux.St Nat) : Nat × Int × Bool × Option Nat × Option Nat :=
  (s.dc 0, s.ring.cursor, decide (s.ring.cp 0 = .wait (s.ring.cursor + 1)), s.content 1, s.content 2)

set_option synthInstance.maxSize 4000 in
/-- The hypotheses of the theorems are met. -/
theorem C87_example : ∃ s : Sub false 2 0 ex0, Reach "m" true .safe s ∧ s.del = none ∧ s.hist = exHist ∧ (mux s).dc 0 = 1 ∧ (mux s).ring.cursor = 2 ∧ Quiet 0 (mux s) ∧
    (mux s).content 1 = some 11 ∧ (mux s).content 2 = some 12 := by
  have hx : (MemD.runOk (fun _ => true) "m" true (MemD.St.init (chan false 2 0 ex0) .safe) exActs).map (fun s => (s.del.isNone, s.hist, obs (mux s))) =
      some (true, exHist, 1, 2, true, some 11, some 12) := by decide +kernel
  obtain ⟨s, hs, he⟩ := Option.map_eq_some_iff.mp hx
  simp only [obs, Prod.mk.injEq, Option.isNone_iff_eq_none, decide_eq_true_eq] at he
  obtain ⟨e1, e2, e3, e4, e5, e6, e7⟩ := he
  exact ⟨s, reach_of_run _ hs, e1, e2, e3, e4, ⟨_, e5, by omega⟩, e6, e7⟩

set_option synthInstance.maxSize 4000 in
/-- The hypotheses of `C87_every_listener_up_to_date` are met: a listener registered after the first batch, one more event. -/
theorem C87_example_up_to_date : ∃ s1 s : Sub false 2 0 ex0, Reach "m" true .safe s1 ∧ After "m" true s1 s ∧ (∃ h', s.hist = s1.hist ++ .reg "m" "l2" :: h' ∧ NoThrow h' ∧ .rem "m" "l2" ∉ h') ∧
    Quiet 0 (mux s) ∧ s.del = none ∧ (mux s1).ring.cursor = 1 ∧ (mux s).ring.cursor = 2 ∧ (gets (regs s1.hist) s.hist).getLast? = some (2, .init 2) := by
  have hx : (MemD.runOk (fun _ => true) "m" true (MemD.St.init (chan false 2 0 ex0) .safe)
      ([.ch (.mux (.run 0)), .reg "l0", .once] ++ exPub 10 ++ exPub 11 ++ exRead 1 2)).map
      (fun s1 => ((s1.hist, (mux s1).ring.cursor), (MemD.runOk (fun _ => true) "m" true s1 ([.reg "l2"] ++ exPub 12 ++ exRead 0 2)).map fun s =>
        (s.hist, s.del.isNone, (mux s).ring.cursor, decide ((mux s).ring.cp 0 = .wait ((mux s).ring.cursor + 1))))) =
      some ((exHist.take 6, 1), some (exHist, true, 2, true)) := by decide +kernel
  obtain ⟨s1, hs1, he⟩ := Option.map_eq_some_iff.mp hx
  simp only [Prod.mk.injEq] at he
  obtain ⟨⟨e1, e2⟩, h2⟩ := he
  obtain ⟨s, hs, he'⟩ := Option.map_eq_some_iff.mp h2
  simp only [Prod.mk.injEq, Option.isNone_iff_eq_none, decide_eq_true_eq] at he'
  obtain ⟨f1, f2, f3, f4⟩ := he'
  refine ⟨s1, s, reach_of_run _ hs1, After.of_run _ hs, ⟨exHist.drop 7, by rw [f1, e1]; rfl, ?_, by decide +kernel⟩, ⟨_, f4, by omega⟩, f2, e2, f3, by rw [f1, e1]; decide +kernel⟩
  intro no m hm
  simp [exHist] at hm

set_option synthInstance.maxSize 4000 in
/-- Finding against **C87**: the first listener throws: the listeners after it do not get the event, and it is not counted as discarded either; the subscriber has read
everything.  The next event reaches both. -/
theorem C87_violation_exception_hides_event : ∃ s : Sub false 2 0 ex0, Reach "m" true .safe s ∧ s.del = none ∧ Quiet 0 (mux s) ∧ (mux s).ring.cursor = 0 ∧
    s.hist = [.reg "m" "l0", .reg "m" "l1", .start "m" (some (.ev (0, .init 0))), .call 0 (.ev (0, .init 0)) false] ∧
    gets 1 s.hist = [] ∧ (mux s).dc 0 = 0 ∧
    ∃ s', After "m" true s s' ∧ gets 0 s'.hist = [(0, .init 0), (1, .init 1)] ∧ gets 1 s'.hist = [(1, .init 1)] ∧ (mux s').dc 0 = 0 := by
  have hx : (MemD.runOk (fun _ => true) "m" true (MemD.St.init (chan false 2 0 ex0) .safe)
      ([.ch (.mux (.run 0)), .reg "l0", .reg "l1"] ++ exPub 10 ++ [.ch (.mux (.look 0)), .ch (.mux (.advance 0)), .take, .call false])).map
      (fun s => ((s.del.isNone, s.hist, obs (mux s)),
        (MemD.runOk (fun _ => true) "m" true s (exPub 11 ++ exRead 0 2)).map fun s' => (gets 0 s'.hist, gets 1 s'.hist, (mux s').dc 0))) =
      some ((true, [.reg "m" "l0", .reg "m" "l1", .start "m" (some (.ev (0, .init 0))), .call 0 (.ev (0, .init 0)) false], 0, 0, true, none, none),
        some ([(0, .init 0), (1, .init 1)], [(1, .init 1)], 0)) := by decide +kernel
  obtain ⟨s, hs, he⟩ := Option.map_eq_some_iff.mp hx
  simp only [obs, Prod.mk.injEq, Option.isNone_iff_eq_none, decide_eq_true_eq] at he
  obtain ⟨⟨e1, e2, e3, e4, e5, _, _⟩, h2⟩ := he
  obtain ⟨s', hs', he'⟩ := Option.map_eq_some_iff.mp h2
  simp only [Prod.mk.injEq] at he'
  refine ⟨s, reach_of_run _ hs, e1, ⟨_, e5, by omega⟩, e4, e2, by rw [e2]; decide +kernel, e3, s', ?_, he'.1, he'.2.1, he'.2.2⟩
  exact After.of_run _ hs'

/-- Finding against **C87**: a name registered twice: both listeners are called, and after the removal of the name the first one still is; it can not be removed. -/
theorem C87_violation_name_twice :
    (MemD.run "m" true (MemD.St.init (chan false 2 0 ex0) .safe) ([.ch (.mux (.run 0)), .reg "l", .reg "l", .rem "l"] ++ exPub 10 ++ exRead 0 1 ++ [.rem "l"] ++ exPub 11 ++
      exRead 0 1)).map (fun s => s.hist) = some [.reg "m" "l", .reg "m" "l", .rem "m" "l", .start "m" (some (.ev (0, .init 0))), .call 0 (.ev (0, .init 0)) true, .fin,
        .rem "m" "l", .start "m" (some (.ev (1, .init 1))), .call 0 (.ev (1, .init 1)) true, .fin] ∧
    ¬ Conforms ([.reg "m" "l", .reg "m" "l", .rem "m" "l", .start "m" (some (.ev (0, .init 0))), .call 0 (.ev (0, .init 0)) true, .fin] : List (Event Data)) := by
  refine ⟨by decide +kernel, ?_⟩
  rintro ⟨a, h⟩
  cases h

/-- A delivery under way: the publisher goes on publishing while the listeners are called, and fills the other slots; what the second listener reads is still what was published. -/
theorem C87_example_delivery : ∃ s : Sub false 2 0 ex0, ∃ t, Reach "m" true .safe s ∧ s.del = some ((0, .init 0), [t]) ∧ (mux s).ring.cursor = 3 ∧
    (mux s).content 0 = some 10 ∧ (mux s).heap (.init 0) = 10 ∧ (mux s).ring.cp 0 = .handle 0 0 := by
  have hx : (MemD.runOk (fun _ => true) "m" true (MemD.St.init (chan false 2 0 ex0) .safe)
      ([.ch (.mux (.run 0)), .reg "l0", .reg "l1"] ++ exPub 10 ++ [.ch (.mux (.look 0)), .ch (.mux (.advance 0)), .take] ++ exPub 11 ++ [.call true] ++ exPub 12 ++ exPub 13)).map
      (fun s => (s.del.map fun x => (x.1, x.2.length), (mux s).ring.cursor, (mux s).content 0, (mux s).heap (.init 0), (mux s).ring.cp 0)) =
      some (some ((0, .init 0), 1), 3, some 10, 10, .handle 0 0) := by decide +kernel
  obtain ⟨s, hs, he⟩ := Option.map_eq_some_iff.mp hx
  simp only [Prod.mk.injEq] at he
  obtain ⟨e1, e2, e3, e4, e5⟩ := he
  obtain ⟨⟨d, todo⟩, e6, e7⟩ := Option.map_eq_some_iff.mp e1
  simp only [Prod.mk.injEq] at e7
  obtain ⟨rfl, e7⟩ := e7
  obtain ⟨t, rfl⟩ := List.length_eq_one_iff.mp e7
  exact ⟨s, t, reach_of_run _ hs, e6, e2, e3, e4, e5⟩

end Verif.MuxD
