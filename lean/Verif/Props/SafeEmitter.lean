import Verif.Lemmas.SafeEmitter
import Mathlib.Order.Nat

/-!
Properties of `SafeEventEmitter` (C14–C16).  `κ` is the type of event names (`std::string`, any linear order), `β` the
callbacks, `ε` the events.
-/

namespace Verif.SafeEE
open Verif EmitterSpec

variable {κ β ε : Type} [LinearOrder κ]

/-- **C14/C15/C16**: for every history of method calls with fewer than 2^32 registrations, the emitter returns exactly the
results of the registry specification: the same ids, the same exceptions, and for every emission exactly the live
listeners of that name, once each, in registration order. -/
theorem C14_refines_registry (os : List (Op κ β ε)) (h : registrations os < 2 ^ 32) :
    (SafeEE.runOps (St.init : St κ β) os).2 = (EmitterSpec.runOps Reg.init os).2 :=
  (refine_run os _ _ R.init (by simpa [Reg.init] using h)).1

/-- **C14** spelled out: the emission that follows any history calls exactly the listeners of that name that are live,
in registration order, with the event, and does not throw. -/
theorem C14_emit (os : List (Op κ β ε)) (n : κ) (e : ε) (h : registrations os < 2 ^ 32) :
    (SafeEE.apply (SafeEE.runOps (St.init : St κ β) os).1 (.emit n e)).2 =
      .calls (((EmitterSpec.runOps (Reg.init : Reg κ β) os).1.live.filter (fun x => decide (x.name = n))).map
        (fun x => (x.id, x.cb, e))) false := by
  have h1 := (refine_run os _ _ R.init (by simpa [Reg.init] using h)).2
  exact (h1.apply (.emit n e) (Or.inr ⟨by simp, by simp⟩)).1

/-- **C14** under concurrency and re-entrancy: whatever other threads or the callbacks themselves do to the emitter while
an emission is under way, the emission that started in state `s` calls exactly the handlers registered for that name at
its start, in order, once each: all of them when it returns, an initial part of them while it is under way or when it is
ended by an exception. -/
theorem C14_emission_is_snapshot {s s' : CSt κ β ε} {k : Nat} {n : κ} {e : ε} {as : List (CAct κ β ε)} {log}
    (hs : crun s (.start k n e :: as) = some (s', log)) (ha : ∀ n' e', CAct.start k n' e' ∉ as) :
    callsOf k log <+: (handlers s.em n).map (fun h => (h.id, h.cb, e)) ∧
    (CEv.returned k ∈ log → callsOf k log = (handlers s.em n).map (fun h => (h.id, h.cb, e))) := by
  obtain ⟨s1, ev, log1, h1, h2, rfl⟩ := crun_cons hs
  have hp : Prog k e ((handlers s.em n).map (fun h => (h.id, h.cb, e))) s1 ev := by
    simp only [cstep] at h1
    split at h1
    · cases h1
    · cases h1
      exact .going _ (upd_same _ _ _) rfl (by simp [callsOf]) (by simp) (by simp)
  have := hp.run ha h2
  cases this with
  | going em _ _ h3 h4 _ => exact ⟨⟨_, h3⟩, fun h => absurd h h4⟩
  | returned _ h2 _ _ => exact ⟨⟨[], by simp [h2]⟩, fun _ => h2⟩
  | threw _ h2 _ h4 => exact ⟨h2, fun h => absurd h h4⟩

/-- The handlers taken at the start of an emission after any history are the live listeners of that name. -/
theorem C14_snapshot_is_live (os : List (Op κ β ε)) (n : κ) (h : registrations os < 2 ^ 32) :
    (handlers (SafeEE.runOps (St.init : St κ β) os).1 n).map (fun l => (l.id, l.cb)) =
      ((EmitterSpec.runOps (Reg.init : Reg κ β) os).1.live.filter (fun x => decide (x.name = n))).map
        (fun x => (x.id, x.cb)) :=
  (refine_run os _ _ R.init (by simpa [Reg.init] using h)).2.handlers_entries n

/-- Non-triviality: three names, a once listener, a removal. -/
example : (SafeEE.runOps (St.init : St Nat Char)
      [.on 5 'a', .on 3 'b', .once 5 'c', .on 5 'd', .emit 5 true, .remove 1, .emit 5 false, .remove 1]).2 =
    [.id 1, .id 2, .id 3, .id 4, .calls [(1, 'a', true), (3, 'c', true), (4, 'd', true)] false, .done,
      .calls [(4, 'd', false)] false, .invalid] := by decide +kernel

/-- **C15**: the ids returned in a history with fewer than 2^32 registrations are pairwise different. -/
theorem C15_ids_unique (os : List (Op κ β ε)) (h : registrations os < 2 ^ 32) :
    (retIds (SafeEE.runOps (St.init : St κ β) os).2).Nodup := by
  rw [C14_refines_registry os h]; exact (spec_retIds os _).1

/-- **C15**: `removeListener(id)` succeeds exactly if the id is live, and then the listener is called by no later emission,
in any continuation. -/
theorem C15_removed_never_called (pre post : List (Op κ β ε)) (id : Nat)
    (h : registrations (pre ++ .remove id :: post) < 2 ^ 32)
    (hd : (SafeEE.apply (SafeEE.runOps (St.init : St κ β) pre).1 (.remove id : Op κ β ε)).2 = .done) :
    callCount id (SafeEE.runOps (SafeEE.apply (SafeEE.runOps (St.init : St κ β) pre).1 (.remove id : Op κ β ε)).1 post).2 = 0 := by
  have hreg : ∀ a b : List (Op κ β ε), registrations (a ++ b) = registrations a + registrations b := by
    intro a b
    induction a with
    | nil => simp [registrations]
    | cons o a ih =>
      rw [List.cons_append, registrations_cons, ih, registrations_cons o a]; omega
  rw [hreg, registrations_cons] at h
  have h1 := (refine_run pre (St.init : St κ β) _ R.init (by simp [Reg.init]; omega)).2
  have h2 := h1.apply (.remove id : Op κ β ε) (Or.inr ⟨by simp, by simp⟩)
  have hcnt : ∀ (os : List (Op κ β ε)) (r : Reg κ β), (EmitterSpec.runOps r os).1.count = r.count + registrations os := by
    intro os
    induction os with
    | nil => intro r; rfl
    | cons o os ih =>
      intro r
      rw [registrations_cons]
      simp only [EmitterSpec.runOps]
      rw [ih, spec_count]; omega
  have h0 : (EmitterSpec.runOps (Reg.init : Reg κ β) pre).1.count = registrations pre := by
    rw [hcnt]; simp [Reg.init]
  rw [(refine_run post _ _ h2.2 (by rw [spec_count, h0]; omega)).1]
  rw [h2.1] at hd
  simp only [EmitterSpec.apply] at hd ⊢
  split at hd
  · rename_i hx
    rw [if_pos hx]
    obtain ⟨x, hx, rfl⟩ := hx
    refine spec_dead post _ x.id ?_ ?_
    · intro y hy
      have := (List.mem_filter.mp hy).2
      simpa using this
    · exact h1.bound x hx
  · cases hd

/-- **C15**: removing an id that is not live throws and changes nothing; removing a live one removes exactly that listener. -/
theorem C15_remove_exact (os : List (Op κ β ε)) (id : Nat) (h : registrations os < 2 ^ 32) :
    let s := (SafeEE.runOps (St.init : St κ β) os).1
    ((∃ p ∈ s.listeners, p.2.id = id) →
      SafeEE.apply s (.remove id : Op κ β ε) =
        ({ s with listeners := s.listeners.filter (fun p => decide (p.2.id ≠ id)) }, .done)) ∧
    ((∀ p ∈ s.listeners, p.2.id ≠ id) → SafeEE.apply s (.remove id : Op κ β ε) = (s, .invalid)) := by
  intro s
  have h1 : R s _ := (refine_run os _ _ R.init (by simpa [Reg.init] using h)).2
  have he := removeListener_eq s id h1.ids_nodup
  constructor
  · rintro ⟨p, hp, rfl⟩
    simp only [SafeEE.apply, he]
    rw [if_pos (show p.2.id ∈ ids s.listeners from List.mem_map.mpr ⟨p, hp, rfl⟩)]
  · intro hp
    simp only [SafeEE.apply, he]
    rw [if_neg]
    intro hm
    obtain ⟨p, hp', rfl⟩ := List.mem_map.mp hm
    exact hp p hp' rfl

/-- **C15**: the 32 bit id counter wraps: after exactly 2^32 further registrations an id is given out again (the bound in
the theorems above is needed). -/
theorem C15_id_reused_after_wrap (n : κ) (cb : β) (s : St κ β) (hs : s.last < 2 ^ 32) :
    (on (SafeEE.runOps (on s n cb).1 (List.replicate (2 ^ 32 - 1) (.on n cb : Op κ β ε))).1 n cb).2 = (on s n cb).2 := by
  have key : ∀ (m : Nat) (s : St κ β), s.last < 2 ^ 32 →
      (SafeEE.runOps s (List.replicate m (.on n cb : Op κ β ε))).1.last = (s.last + m) % 2 ^ 32 := by
    intro m
    induction m with
    | zero => intro s hs; simp [SafeEE.runOps]; omega
    | succ m ih =>
      intro s hs
      rw [List.replicate_succ]
      simp only [SafeEE.runOps, SafeEE.apply, on, addListener]
      rw [ih _ (Nat.mod_lt _ (by decide))]
      simp only
      omega
  have h1 : (on s n cb).1.last < 2 ^ 32 := Nat.mod_lt _ (by decide)
  have h2 := key (2 ^ 32 - 1) _ h1
  have e1 : ∀ t : St κ β, (on t n cb).2 = (t.last + 1) % 2 ^ 32 := fun _ => rfl
  have e2 : (on s n cb).1.last = (s.last + 1) % 2 ^ 32 := rfl
  rw [e1, h2, e2, e1]
  omega

/-- **C15 under concurrency**: an emission that starts after the removal never calls the removed listener (by
`C14_emission_is_snapshot` its calls are among the handlers of the start state), but one that was already under way still does. -/
theorem C15_running_emission_calls_removed :
    ∃ s log, crun (CSt.init : CSt Nat Char Bool)
      [.op (.on 0 'a'), .op (.on 0 'b'), .start 7 0 true, .op (.remove 2), .call 7, .call 7, .ret 7] = some (s, log) ∧
      CEv.called 7 2 'b' true ∈ log := ⟨_, _, rfl, by decide⟩

/-- **C16** (histories without interleaving): a listener registered with `once` is called at most once in any continuation of any
history.
Missing: overlapping emissions (C16_once_twice_and_throws). -/
theorem C16_once_at_most_once_partial (pre post : List (Op κ β ε)) (n : κ) (cb : β)
    (h : registrations (pre ++ .once n cb :: post) < 2 ^ 32) (id : Nat)
    (hid : (SafeEE.apply (SafeEE.runOps (St.init : St κ β) pre).1 (.once n cb : Op κ β ε)).2 = .id id) :
    callCount id (SafeEE.runOps (SafeEE.apply (SafeEE.runOps (St.init : St κ β) pre).1 (.once n cb : Op κ β ε)).1 post).2 ≤ 1 := by
  have hreg : ∀ a b : List (Op κ β ε), registrations (a ++ b) = registrations a + registrations b := by
    intro a b
    induction a with
    | nil => simp [registrations]
    | cons o a ih =>
      rw [List.cons_append, registrations_cons, ih, registrations_cons o a]; omega
  rw [hreg, registrations_cons] at h
  simp only [registrations] at h
  have hcnt : ∀ (os : List (Op κ β ε)) (r : Reg κ β), (EmitterSpec.runOps r os).1.count = r.count + registrations os := by
    intro os
    induction os with
    | nil => intro r; rfl
    | cons o os ih =>
      intro r
      rw [registrations_cons]
      simp only [EmitterSpec.runOps]
      rw [ih, spec_count]; omega
  have h0 : (EmitterSpec.runOps (Reg.init : Reg κ β) pre).1.count = registrations pre := by
    rw [hcnt]; simp [Reg.init]
  have h1 := (refine_run pre (St.init : St κ β) _ R.init (by simp [Reg.init]; omega)).2
  have h2 := h1.apply (.once n cb : Op κ β ε) (Or.inl (by rw [h0]; omega))
  rw [(refine_run post _ _ h2.2 (by rw [spec_count, h0]; simp [registrations]; omega)).1]
  rw [h2.1] at hid
  simp only [EmitterSpec.apply, Res.id.injEq] at hid
  have hok : RegOk (EmitterSpec.runOps (Reg.init : Reg κ β) pre).1 :=
    RegOk.runOps ⟨by simp [Reg.init], by simp [Reg.init]⟩ pre
  refine spec_once post _ (hok.apply (.once n cb : Op κ β ε)) id ?_ ?_
  · intro x hx hxid
    rcases List.mem_append.mp hx with hx | hx
    · have := hok.bound x hx; omega
    · simp at hx; subst hx; rfl
  · simp only [EmitterSpec.apply]; omega

/-- **C16**: it is called by the first emission of its name, if it is still registered then, and is gone afterwards. -/
theorem C16_once_called_by_emission (os : List (Op κ β ε)) (h : registrations os < 2 ^ 32) (x : Entry κ β) (e : ε)
    (hx : x ∈ (EmitterSpec.runOps (Reg.init : Reg κ β) os).1.live) (ho : x.isOnce = true) :
    ∃ calls, (SafeEE.apply (SafeEE.runOps (St.init : St κ β) os).1 (.emit x.name e)).2 = .calls calls false ∧
      (x.id, x.cb, e) ∈ calls ∧
      ∀ p ∈ (SafeEE.apply (SafeEE.runOps (St.init : St κ β) os).1 (.emit x.name e)).1.listeners, p.2.id ≠ x.id := by
  have h1 := (refine_run os (St.init : St κ β) _ R.init (by simpa [Reg.init] using h)).2
  have h2 := h1.apply (.emit x.name e) (Or.inr ⟨by simp, by simp⟩)
  refine ⟨_, h2.1, ?_, ?_⟩
  · exact List.mem_map.mpr ⟨x, List.mem_filter.mpr ⟨hx, by simp⟩, rfl⟩
  · intro p hp hid
    have hm : p.2.id ∈ ids (SafeEE.apply (SafeEE.runOps (St.init : St κ β) os).1 (.emit x.name e)).1.listeners :=
      List.mem_map.mpr ⟨p, hp, rfl⟩
    obtain ⟨y, hy, hyid⟩ := (h2.2.mem_ids _).mp hm
    simp only [EmitterSpec.apply] at hy
    have hy' := List.mem_filter.mp hy
    have : y = x := List.inj_on_of_nodup_map h1.nodup hy'.1 hx (by rw [hyid, hid])
    subst this
    have := hy'.2
    simp [ho] at this

/-- **C16 fails under concurrency**: two overlapping emissions of the same name both call the once listener, and the
second one ends with `std::invalid_argument` without calling its remaining handlers. -/
theorem C16_once_twice_and_throws :
    ∃ s log, crun (CSt.init : CSt Nat Char Bool)
      [.op (.once 0 'a'), .op (.on 0 'b'), .start 1 0 true, .start 2 0 false, .call 1, .call 2, .finish 1, .finish 2] =
        some (s, log) ∧
      log = [.called 1 1 'a' true, .called 2 1 'a' false, .threw 2] ∧ s.run 2 = none := by
  refine ⟨_, _, rfl, by decide, by decide⟩

/-- **C16 fails under re-entrancy** in one thread: if an earlier listener of the same emission removes the once listener, the
emission ends with an exception although the once listener was called only by it. -/
theorem C16_removed_during_emission_throws :
    ∃ s log, crun (CSt.init : CSt Nat Char Bool)
      [.op (.on 0 'x'), .op (.once 0 'a'), .op (.on 0 'b'), .start 1 0 true, .call 1, .op (.remove 2), .call 1, .finish 1] =
        some (s, log) ∧
      log = [.called 1 1 'x' true, .called 1 2 'a' true, .threw 1] := ⟨_, _, rfl, by decide⟩

/-- Discarding an event is counted once for each live listener of that name that has statistics, and for no other. -/
theorem C14_discard_counts (os : List (Op κ β ε)) (h : registrations os < 2 ^ 32) (n : κ) (p : κ × Lis β)
    (hp : p ∈ (SafeEE.runOps (St.init : St κ β) os).1.listeners) :
    statsOf (discard (SafeEE.runOps (St.init : St κ β) os).1 n) p.2.id = if p.1 = n then p.2.disc.map (· + 1) else p.2.disc := by
  have hn := (refine_run os (St.init : St κ β) _ R.init (by simpa [Reg.init] using h)).2.ids_nodup
  generalize (SafeEE.runOps (St.init : St κ β) os).1 = s at *
  have hfind : ∀ l : List (κ × Lis β), (ids l).Nodup → p ∈ l →
      (l.map fun q => if q.1 = n then (q.1, { q.2 with disc := q.2.disc.map (· + 1) }) else q).find?
        (fun q => q.2.id == p.2.id) =
      some (if p.1 = n then (p.1, { p.2 with disc := p.2.disc.map (· + 1) }) else p) := by
    intro l hl hpl
    induction l with
    | nil => simp at hpl
    | cons q l ih =>
      simp only [ids, List.map_cons, List.nodup_cons] at hl
      rw [List.map_cons, List.find?_cons]
      have hq : (if q.1 = n then ((q.1, { q.2 with disc := q.2.disc.map (· + 1) }) : κ × Lis β) else q).2.id = q.2.id := by
        split <;> rfl
      rw [hq]
      rcases List.mem_cons.mp hpl with rfl | hpl
      · simp
      · have : q.2.id ≠ p.2.id := by
          intro he; apply hl.1; rw [he]; exact List.mem_map.mpr ⟨p, hpl, rfl⟩
        have hb : (q.2.id == p.2.id) = false := by simpa using this
        rw [hb]
        exact ih hl.2 hpl
  simp only [statsOf, discard]
  rw [hfind s.listeners hn hp]
  by_cases hpn : p.1 = n <;> simp [hpn]

end Verif.SafeEE
