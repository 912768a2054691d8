import Verif.Model.Reentry
import Verif.Lemmas.MultiEmitter
import Verif.Props.SingleEmitter
import Verif.Props.SafeEmitter

/-! Properties of listeners that change the registrations while they are called (C56). -/

/-! ### SafeEventEmitter -/

namespace Verif.SafeEE
open Verif.EmitterSpec

variable {κ β ε : Type} [LinearOrder κ]

/-- **C56** for `SafeEventEmitter`: between any two steps of an emission any registrations, removals and other emissions may take place (`as` is
arbitrary); the emission calls the listeners registered when it began, in order, all of them if it returns. -/
theorem C56_safe {s s' : CSt κ β ε} {k : Nat} {n : κ} {e : ε} {as : List (CAct κ β ε)} {log}
    (hs : crun s (.start k n e :: as) = some (s', log)) (ha : ∀ n' e', CAct.start k n' e' ∉ as) :
    callsOf k log <+: (handlers s.em n).map (fun h => (h.id, h.cb, e)) ∧
    (CEv.returned k ∈ log → callsOf k log = (handlers s.em n).map (fun h => (h.id, h.cb, e))) :=
  C14_emission_is_snapshot hs ha

/-- **C56**: and every method may be called at any moment of it (the mutex is not held while listeners run). -/
theorem C56_safe_no_deadlock (s : CSt κ β ε) (o : Op κ β ε) (ho : ∀ n e, o ≠ .emit n e) : ∃ r, cstep s (.op o) = some r := by
  cases o with
  | emit n e => exact absurd rfl (ho n e)
  | _ => exact ⟨_, rfl⟩

/-- **C56**: an emission of repeating listeners never ends with an exception, whatever is done meanwhile.  (With a once listener it may:
`C16_removed_during_emission_throws`.) -/
theorem C56_safe_never_throws {s s' : CSt κ β ε} {k : Nat} {n : κ} {e : ε} {as : List (CAct κ β ε)} {log}
    (hs : crun s (.start k n e :: as) = some (s', log)) (ha : ∀ n' e', CAct.start k n' e' ∉ as)
    (hh : ∀ h ∈ handlers s.em n, h.isOnce = false) : CEv.threw k ∉ log := by
  obtain ⟨s1, ev, log1, h1, h2, rfl⟩ := crun_cons hs
  have hstart : ev = [] ∧ (∀ em, s1.run k = some em → em.toRemove = none ∧ ∀ h ∈ em.rest, h.isOnce = false) := by
    simp only [cstep] at h1
    split at h1
    · cases h1
    · cases h1
      refine ⟨rfl, ?_⟩
      intro em hem
      simp only [upd_same, Option.some.injEq] at hem
      subst hem
      exact ⟨rfl, hh⟩
  obtain ⟨rfl, hI⟩ := hstart
  simp only [List.nil_append]
  clear h1 hs hh
  induction as generalizing s1 log1 with
  | nil => cases h2; simp
  | cons a as ih =>
    obtain ⟨s2, ev, log2, h3, h4, rfl⟩ := crun_cons h2
    have hstep : CEv.threw k ∉ ev ∧ (∀ em, s2.run k = some em → em.toRemove = none ∧ ∀ h ∈ em.rest, h.isOnce = false) := by
      cases a with
      | op o =>
        cases o <;> simp only [cstep] at h3 <;> first | (cases h3; done) | (cases h3; exact ⟨by simp, hI⟩)
      | start k' n' e' =>
        have hk : k' ≠ k := fun h => ha n' e' (by rw [h]; simp)
        simp only [cstep] at h3
        split at h3
        · cases h3
        · cases h3
          refine ⟨by simp, ?_⟩
          intro em hem
          exact hI em (by simpa [upd_apply, Ne.symm hk] using hem)
      | call k' =>
        simp only [cstep] at h3
        split at h3
        · rename_i e' h rest hrun
          cases h3
          refine ⟨by simp, ?_⟩
          intro em hem
          simp only [upd_apply] at hem
          split at hem
          · rename_i hk; subst hk
            cases hem
            obtain ⟨_, hr⟩ := hI _ hrun
            exact ⟨by simp [hr h (by simp)], fun x hx => hr x (by simp [hx])⟩
          · exact hI em hem
        · cases h3
      | finish k' =>
        simp only [cstep] at h3
        split at h3
        · rename_i e' rest id hrun
          have hk : k ≠ k' := by
            rintro rfl
            have := (hI _ hrun).1
            cases this
          split at h3
          · cases h3
            refine ⟨by simp, ?_⟩
            intro em hem
            exact hI em (by simpa [upd_apply, hk] using hem)
          · cases h3
            refine ⟨by simp [hk], ?_⟩
            intro em hem
            exact hI em (by simpa [upd_apply, hk] using hem)
        · cases h3
      | ret k' =>
        simp only [cstep] at h3
        split at h3
        · cases h3
          refine ⟨by simp, ?_⟩
          intro em hem
          simp only [upd_apply] at hem
          split at hem
          · cases hem
          · exact hI em hem
        · cases h3
    intro hmem
    rcases List.mem_append.mp hmem with h | h
    · exact hstep.1 h
    · exact ih (s1 := s2) (fun n' e' hm => ha n' e' (List.mem_cons_of_mem _ hm)) _ h4 hstep.2 h

/-- A listener removes itself and adds another one while it is called; a nested emission already calls the new one. -/
theorem C56_safe_example : (crun (CSt.init : CSt Nat Char Bool)
    [.op (.on 0 'a'), .op (.on 0 'b'), .start 1 0 true, .call 1, .op (.remove 1), .op (.on 0 'c'), .start 2 0 false, .call 2, .call 2, .ret 2,
      .call 1, .ret 1]).map (fun r => r.2) =
    some [.called 1 1 'a' true, .called 2 2 'b' false, .called 2 3 'c' false, .returned 2, .called 1 2 'b' true, .returned 1] := by
  decide +kernel

end Verif.SafeEE

/-! ### UnsafeMultiListenerEventEmitter -/

namespace Verif.MultiEE

variable {κ β : Type} [DecidableEq κ]

structure RInv (s : RSt κ β) : Prop where
  reg : ∃ r, Inv s.em r
  same : s.undef = false → ∀ f ∈ s.frames, s.em.subs f.sub = f.all ∧ f.called ++ f.rest = f.all
  ok : s.undef = false → s.crash = false

theorem rinv_reach {s : RSt κ β} (h : RReach s) : RInv s := by
  induction h with
  | init => exact ⟨⟨_, Inv.init⟩, nofun, fun _ => rfl⟩
  | @step s s' a _ hs ih =>
    obtain ⟨⟨r, hr⟩, hsame, hok⟩ := ih
    cases a with
    | on c l n cb realloc =>
      simp only [rstep] at hs
      split at hs <;> cases hs
      refine ⟨⟨_, (hr.apply (.on c l n cb : Op κ β Unit)).2⟩, ?_, ?_⟩
      · intro hu f hf
        simp only [Bool.or_eq_false_iff] at hu
        obtain ⟨h1, h2⟩ := hsame hu.1 f hf
        refine ⟨?_, h2⟩
        have hb := hu.2
        unfold onBreaks at hb
        show (on s.em c l n cb).1.subs f.sub = f.all
        unfold on
        cases hfind : s.em.names.find? (fun p => decide (p.1 = l)) with
        | some p => exact h1
        | none =>
          rw [hfind] at hb
          simp only [Bool.or_eq_false_iff, List.any_eq_false, decide_eq_true_eq] at hb
          show upd _ _ _ _ = _
          rw [upd_other _ _ (hb.2 f hf)]
          exact h1
      · intro hu
        simp only [Bool.or_eq_false_iff] at hu
        exact hok hu.1
    | remove c id =>
      simp only [rstep] at hs
      split at hs <;> cases hs
      refine ⟨⟨_, (hr.apply (.remove c id : Op κ β Unit)).2⟩, ?_, ?_⟩
      · intro hu f hf
        simp only [Bool.or_eq_false_iff] at hu
        obtain ⟨h1, h2⟩ := hsame hu.1 f hf
        refine ⟨?_, h2⟩
        have hb := hu.2
        unfold removeBreaks at hb
        show (remove s.em c id).subs f.sub = f.all
        unfold remove
        split
        · rename_i hlt
          simp only [hlt, decide_true, Bool.true_and, List.any_eq_false, Bool.or_eq_true, decide_eq_true_eq, not_or] at hb
          show (s.em.subs f.sub).erase id = f.all
          rw [List.erase_of_not_mem (hb f hf).2]
          exact h1
        · exact h1
      · intro hu
        simp only [Bool.or_eq_false_iff] at hu
        exact hok hu.1
    | removeAll =>
      simp only [rstep] at hs
      split at hs <;> cases hs
      refine ⟨⟨_, (hr.apply (.removeAll : Op κ β Unit)).2⟩, ?_, ?_⟩
      · intro hu f hf
        simp only [Bool.or_eq_false_iff, Bool.not_eq_false', List.isEmpty_iff] at hu
        rw [hu.2] at hf; cases hf
      · intro hu
        simp only [Bool.or_eq_false_iff] at hu
        exact hok hu.1
    | discard n =>
      simp only [rstep] at hs
      split at hs <;> cases hs
      exact ⟨⟨_, (hr.apply (.discard n : Op κ β Unit)).2⟩, hsame, hok⟩
    | start n =>
      simp only [rstep] at hs
      split at hs <;> cases hs
      refine ⟨⟨r, hr⟩, ?_, hok⟩
      intro hu f hf
      rcases List.mem_cons.mp hf with rfl | hf
      · exact ⟨rfl, rfl⟩
      · exact hsame hu f hf
    | call =>
      simp only [rstep] at hs
      split at hs
      · rename_i n id rest all called fs hfr
        split at hs
        · cases hs
          refine ⟨⟨r, hr⟩, ?_, hok⟩
          intro hu f hf
          rcases List.mem_cons.mp hf with rfl | hf
          · have := hsame hu ⟨n, id :: rest, none, all, called⟩ (by rw [hfr]; simp)
            refine ⟨this.1, ?_⟩
            have h2 := this.2
            simp only [List.append_assoc, List.cons_append, List.nil_append] at h2 ⊢
            exact h2
          · exact hsame hu f (by rw [hfr]; simp [hf])
        · rename_i hn
          cases hs
          refine ⟨⟨r, hr⟩, hsame, ?_⟩
          intro hu
          exfalso
          have hfr' := hsame hu ⟨n, id :: rest, none, all, called⟩ (by rw [hfr]; simp)
          have hmem : id ∈ s.em.subs n := by
            have h1 : s.em.subs n = all := hfr'.1
            have h2 : called ++ id :: rest = all := hfr'.2
            rw [h1, ← h2]; simp
          rw [hr.subs] at hmem
          obtain ⟨x, hx, rfl⟩ := List.mem_map.mp hmem
          exact hn _ (hr.fns x (List.mem_of_mem_filter hx))
      · cases hs
    | back =>
      simp only [rstep] at hs
      split at hs
      · rename_i n rest id all called fs hfr
        cases hs
        refine ⟨⟨r, hr⟩, ?_, hok⟩
        intro hu f hf
        rcases List.mem_cons.mp hf with rfl | hf
        · exact hsame hu ⟨n, rest, some id, all, called⟩ (by rw [hfr]; simp)
        · exact hsame hu f (by rw [hfr]; simp [hf])
      · cases hs
    | ret =>
      simp only [rstep] at hs
      split at hs
      · rename_i n all called fs hfr
        cases hs
        exact ⟨⟨r, hr⟩, fun hu f hf => hsame hu f (by rw [hfr]; simp [hf]), hok⟩
      · cases hs

/-- **C56** for `UnsafeMultiListenerEventEmitter`, as far as it holds: in every history of calls, nested emissions and calls made by listeners in which
nothing in use was invalidated, no null function is called, and every emission has called an initial part of the listeners that were
registered when it began and has the others still to call.
Missing: the listeners of the name that is emitted must not change, and no listener may be added that needs new memory: see the violations. -/
theorem C56_multi_partial {s : RSt κ β} (h : RReach s) (hu : s.undef = false) :
    s.crash = false ∧ ∀ f ∈ s.frames, f.called ++ f.rest = f.all :=
  let i := rinv_reach h
  ⟨i.ok hu, fun f hf => (i.same hu f hf).2⟩

/-- When it returns all of them have been called.
Missing: listeners that change the registrations of the multi-listener emitter, where it fails (`C56_violation_multi_*`). -/
theorem C56_multi_returns_partial {s s' : RSt κ β} (h : RReach s) (hu : s.undef = false) {f : Frame κ} {fs} (hf : s.frames = f :: fs)
    (hs : rstep s .ret = some s') : f.called = f.all ∧ s'.frames = fs := by
  have := (C56_multi_partial h hu).2 f (by rw [hf]; simp)
  simp only [rstep, hf] at hs
  split at hs
  · rename_i heq
    cases heq
    cases hs
    simpa using this
  · cases hs

/-- What a listener may do: everything that does not change the listeners of a name being emitted, provided the memory suffices. -/
theorem C56_multi_allowed {s : RSt κ β} (hu : s.undef = false) :
    (∀ c id s', rstep s (.remove c id) = some s' → (∀ f ∈ s.frames, id ∉ s.em.subs f.sub ∧ f.running ≠ some id) → s'.undef = false) ∧
    (∀ c l n cb s', rstep s (.on c l n cb false) = some s' → (∀ f ∈ s.frames, f.sub ≠ n) → s'.undef = false) ∧
    (∀ n s', rstep s (.start n) = some s' → s'.undef = false) := by
  refine ⟨?_, ?_, ?_⟩
  · intro c id s' hs hf
    simp only [rstep] at hs
    split at hs <;> cases hs
    simp only [hu, Bool.false_or, removeBreaks, Bool.and_eq_false_iff, List.any_eq_false, Bool.or_eq_true, decide_eq_true_eq, not_or]
    exact Or.inr (fun f h => ⟨(hf f h).2, (hf f h).1⟩)
  · intro c l n cb s' hs hf
    simp only [rstep] at hs
    split at hs <;> cases hs
    simp only [hu, Bool.false_or, onBreaks]
    split
    · rfl
    · simp only [Bool.false_and, Bool.false_or, List.any_eq_false, decide_eq_true_eq]
      exact hf
  · intro n s' hs
    simp only [rstep] at hs
    split at hs <;> cases hs
    exact hu

/-- `removeAll` is possible between the steps of any listener and at rest; at rest it breaks nothing, inside an emission it always does. -/
theorem C56_multi_remove_all {s : RSt κ β} (hf : ∀ f fs, s.frames = f :: fs → f.running ≠ none) :
    ∃ s', rstep s .removeAll = some s' ∧ s'.em = removeAll s.em ∧ (s'.undef = true ↔ s.undef = true ∨ s.frames ≠ []) := by
  have h : s.free = true := by
    unfold RSt.free
    split
    · rfl
    · next f fs e => exact Option.isSome_iff_ne_none.mpr (hf f fs e)
  simp only [rstep, h, if_true]
  exact ⟨_, rfl, rfl, by simp [Bool.or_eq_true]⟩

/-- **C56** fails: a listener that removes itself, in any state. -/
theorem C56_violation_multi_self_removal {s s' : RSt κ β} {f : Frame κ} {fs} (hf : s.frames = f :: fs) {id : Nat}
    (hr : f.running = some id) (hl : id < s.em.fns.length) (c : Bool) (hs : rstep s (.remove c id) = some s') : s'.undef = true := by
  simp only [rstep] at hs
  split at hs <;> cases hs
  simp [removeBreaks, hl, hf, hr]

/-- **C56** fails: a listener removes another one that is still to be called, and the emission calls a null function. -/
theorem C56_violation_multi_remove_next :
    (rrun (RSt.init : RSt Nat Char) [.on false 1 0 'a' true, .on true 2 0 'b' true, .start 0, .call, .remove false 1, .back, .call]).map
      (fun s => (s.undef, s.crash)) = some (true, true) := by decide +kernel

/-- **C56** fails: a listener that registers another listener for the name that is being emitted, in any state. -/
theorem C56_violation_multi_add {s s' : RSt κ β} {f : Frame κ} (hf : f ∈ s.frames) (c : Bool) (l : κ) (cb : β)
    (hnew : ∀ p ∈ s.em.names, p.1 ≠ l) (b : Bool) (hs : rstep s (.on c l f.sub cb b) = some s') : s'.undef = true := by
  simp only [rstep] at hs
  split at hs <;> cases hs
  have : s.em.names.find? (fun p => decide (p.1 = l)) = none := by
    rw [List.find?_eq_none]
    intro p hp
    simpa using hnew p hp
  simp only [onBreaks, this, Bool.or_eq_true, List.any_eq_true, decide_eq_true_eq]
  exact Or.inr (Or.inr ⟨f, hf, rfl⟩)

/-- The violation is reachable; the emission meets the hypotheses of `C56_multi_partial` up to that point. -/
theorem C56_multi_example :
    (rrun (RSt.init : RSt Nat Char) [.on false 1 0 'a' true, .on true 2 0 'b' true, .on false 3 9 'c' true, .start 0, .call, .remove false 2,
        .start 0, .call, .back, .call, .back, .ret, .back, .call]).map (fun s => (s.undef, s.crash, s.frames.map (·.called))) =
      some (false, false, [[0, 1]]) ∧
    (rrun (RSt.init : RSt Nat Char) [.on false 1 0 'a' true, .on true 2 0 'b' true, .start 0, .call, .remove false 0]).map
      (fun s => s.undef) = some true := by decide +kernel

end Verif.MultiEE

/-! ### UnsafeSingleListenerEventEmitter -/

namespace Verif.SingleEE

variable {κ β : Type} [DecidableEq κ]

structure RInv (s : RSt κ β) : Prop where
  reg : ∃ r, Inv s.em r
  ok : s.replaced = false → s.nullAccess = false ∧
    ∀ f ∈ s.frames, s.em.registered = true ∧ f.useStats = s.em.wrapStats ∧ f.cb = s.em.listener ∧ f.cb.isSome = true

theorem rinv_reach {s : RSt κ β} (h : RReach s) : RInv s := by
  induction h with
  | init => exact ⟨⟨none, ⟨fun _ => rfl, nofun⟩⟩, fun _ => ⟨rfl, nofun⟩⟩
  | @step s s' a _ hs ih =>
    obtain ⟨⟨r, hr⟩, hok⟩ := ih
    have hreg : s.em.registered = true → (s.em.wrapStats = true → s.em.stats.isSome = true) ∧ s.em.listener.isSome = true := by
      intro h
      rcases r with _ | ⟨n, cb⟩
      · rw [hr.none rfl] at h; cases h
      · obtain ⟨_, _, h3, h4⟩ := hr.some n cb rfl
        exact ⟨h4, by rw [h3]; rfl⟩
    cases a with
    | on c n cb =>
      cases hs
      refine ⟨⟨_, (hr.apply (.on c n cb : Op κ β Unit)).2⟩, ?_⟩
      intro hu
      simp only [Bool.or_eq_false_iff] at hu
      obtain ⟨h1, h2⟩ := hok hu.1
      refine ⟨h1, ?_⟩
      intro f hf
      have hrg := (h2 f hf).1
      have : (on s.em c n cb).1 = s.em := by simp [on, hrg]
      show (on s.em c n cb).1.registered = true ∧ _ = (on s.em c n cb).1.wrapStats ∧ _ = (on s.em c n cb).1.listener ∧ _
      rw [this]
      exact h2 f hf
    | remove c id =>
      cases hs
      refine ⟨⟨_, (hr.apply (.remove c id : Op κ β Unit)).2⟩, ?_⟩
      intro hu
      simp only [Bool.or_eq_false_iff] at hu
      obtain ⟨h1, h2⟩ := hok hu.1
      refine ⟨h1, ?_⟩
      intro f hf
      have hf' : f ∈ s.frames := hf
      have hne : s.frames.isEmpty = false := by
        cases hfr : s.frames with
        | nil => rw [hfr] at hf'; cases hf'
        | cons _ _ => rfl
      have hid : id ≠ 0 := by
        intro h
        have := hu.2
        simp [hne, h] at this
      have : remove s.em c id = s.em := by simp [remove, hid]
      show (remove s.em c id).registered = true ∧ _ = (remove s.em c id).wrapStats ∧ _ = (remove s.em c id).listener ∧ _
      rw [this]
      exact h2 f hf
    | discard n =>
      cases hs
      refine ⟨⟨_, (hr.apply (.discard n : Op κ β Unit)).2⟩, ?_⟩
      intro hu
      obtain ⟨h1, h2⟩ := hok hu
      refine ⟨h1, ?_⟩
      intro f hf
      have : (discard s.em n).registered = s.em.registered ∧ (discard s.em n).wrapStats = s.em.wrapStats ∧
          (discard s.em n).listener = s.em.listener := by
        unfold discard; split <;> exact ⟨rfl, rfl, rfl⟩
      show (discard s.em n).registered = true ∧ _ = (discard s.em n).wrapStats ∧ _ = (discard s.em n).listener ∧ _
      rw [this.1, this.2.1, this.2.2]
      exact h2 f hf
    | emit n =>
      simp only [rstep] at hs
      split at hs
      · cases hs; exact ⟨⟨r, hr⟩, hok⟩
      · rename_i hc
        simp only [not_or, Bool.not_eq_false] at hc
        cases hs
        refine ⟨⟨r, hr⟩, ?_⟩
        intro hu
        obtain ⟨h1, h2⟩ := hok hu
        obtain ⟨g1, g2⟩ := hreg hc.2
        refine ⟨?_, ?_⟩
        · simp only [h1, Bool.false_or, Bool.and_eq_false_iff]
          cases hw : s.em.wrapStats with
          | false => exact Or.inl rfl
          | true =>
            right
            have := g1 hw
            cases hst : s.em.stats <;> simp_all
        · intro f hf
          rcases List.mem_cons.mp hf with rfl | hf
          · exact ⟨hc.2, rfl, rfl, g2⟩
          · exact h2 f hf
    | back =>
      simp only [rstep] at hs
      split at hs
      · rename_i f fs hfr
        cases hs
        refine ⟨⟨r, hr⟩, ?_⟩
        intro hu
        obtain ⟨h1, h2⟩ := hok hu
        obtain ⟨k1, k2, k3, _⟩ := h2 f (by rw [hfr]; simp)
        obtain ⟨g1, g2⟩ := hreg k1
        refine ⟨?_, fun f' hf' => h2 f' (by rw [hfr]; simp [hf'])⟩
        simp only [h1, Bool.false_or, Bool.and_eq_false_iff]
        rw [k2]
        cases hw : s.em.wrapStats with
        | false => exact Or.inl rfl
        | true =>
          right
          have := g1 hw
          cases hst : s.em.stats <;> simp_all
      · cases hs

/-- **C56** for `UnsafeSingleListenerEventEmitter`, as far as it holds: in every history, with nested emissions, in which no listener removes the
listener that is running, null statistics are never used and each emission is calling the listener that is registered.
Missing: removal by the listener itself, see the violation. -/
theorem C56_single_partial {s : RSt κ β} (h : RReach s) (hu : s.replaced = false) :
    s.nullAccess = false ∧ ∀ f ∈ s.frames, f.cb = s.em.listener ∧ f.cb.isSome = true :=
  let i := (rinv_reach h).ok hu
  ⟨i.1, fun f hf => ⟨(i.2 f hf).2.2.1, (i.2 f hf).2.2.2⟩⟩

/-- Registering while running is ignored, since a listener is registered. -/
theorem C56_single_on_ignored {s s' : RSt κ β} (h : RReach s) (hu : s.replaced = false) (hf : s.frames ≠ []) (c : Bool) (n : κ) (cb : β)
    (hs : rstep s (.on c n cb) = some s') : s'.em = s.em ∧ s'.replaced = false := by
  cases hfr : s.frames with
  | nil => exact absurd hfr hf
  | cons f fs =>
    have hrg := (((rinv_reach h).ok hu).2 f (by rw [hfr]; simp)).1
    cases hs
    refine ⟨by simp [on, hrg], by simp [hu, hrg]⟩

/-- **C56** fails: whenever a listener registered with a container removes itself with the container, the wrapper uses the null
statistics pointer as soon as the listener returns. -/
theorem C56_violation_single_self_removal {s s1 s2 : RSt κ β} {f : Frame β} {fs} (hf : s.frames = f :: fs) (hst : f.useStats = true)
    (h1 : rstep s (.remove true 0) = some s1) (h2 : rstep s1 .back = some s2) : s2.nullAccess = true := by
  cases h1
  simp only [rstep, hf] at h2
  cases h2
  simp [hst, remove]

theorem C56_single_example :
    (rrun (RSt.init : RSt Nat Char) [.on true 4 'a', .emit 4, .on true 4 'b', .emit 4, .back, .back, .remove true 0, .on false 4 'c', .emit 4]).map
      (fun s => (s.replaced, s.nullAccess, s.frames)) = some (false, false, [⟨false, some 'c'⟩]) ∧
    (rrun (RSt.init : RSt Nat Char) [.on true 4 'a', .emit 4, .remove true 0, .back]).map
      (fun s => (s.replaced, s.nullAccess)) = some (true, true) := by decide +kernel

end Verif.SingleEE
