import Verif.Spec.SingleEmitter

/-! Properties of `UnsafeSingleListenerEventEmitter` (C19). -/

namespace Verif.SingleEE

variable {κ β ε : Type} [DecidableEq κ]

/-- Relation to the specification. -/
structure Inv (s : St κ β) (r : Option (κ × β)) : Prop where
  none : r = none → s.registered = false
  some : ∀ n cb, r = some (n, cb) → s.registered = true ∧ s.sub = some n ∧ s.listener = some cb ∧
    (s.wrapStats = true → s.stats.isSome = true)

theorem Inv.apply {s : St κ β} {r} (h : Inv s r) (o : Op κ β ε) :
    (SingleEE.apply s o).2 = (specApply r o).2 ∧ Inv (SingleEE.apply s o).1 (specApply r o).1 := by
  rcases r with _ | ⟨m, cb0⟩
  · have hr := h.none rfl
    cases o with
    | on c n cb =>
      simp only [SingleEE.apply, on, hr, specApply]
      refine ⟨rfl, ⟨by simp, ?_⟩⟩
      intro n' cb' he
      cases he
      refine ⟨rfl, rfl, rfl, ?_⟩
      intro hc
      simp only [Bool.false_eq_true, if_false] at hc ⊢
      simp [hc]
    | remove c id =>
      refine ⟨rfl, ?_⟩
      simp only [SingleEE.apply, remove, specApply]
      split <;> exact ⟨by simp [hr], by simp⟩
    | removeAll c =>
      refine ⟨rfl, ?_⟩
      simp only [SingleEE.apply, removeAll, remove, specApply]
      exact ⟨by simp, by simp⟩
    | emit n e =>
      refine ⟨?_, h⟩
      simp [SingleEE.apply, emit, specApply, hr]
    | discard n =>
      refine ⟨rfl, ?_⟩
      simp only [SingleEE.apply, discard, specApply]
      split
      · exact h
      · exact ⟨fun _ => hr, by simp⟩
  · obtain ⟨h1, h2, h3, h4⟩ := h.some m cb0 rfl
    cases o with
    | on c n cb =>
      simp only [SingleEE.apply, on, h1, specApply]
      exact ⟨rfl, h⟩
    | remove c id =>
      refine ⟨rfl, ?_⟩
      simp only [SingleEE.apply, remove, specApply]
      split
      · exact ⟨by simp, by simp⟩
      · exact h
    | removeAll c =>
      refine ⟨rfl, ?_⟩
      simp only [SingleEE.apply, removeAll, remove, specApply]
      exact ⟨by simp, by simp⟩
    | emit n e =>
      refine ⟨?_, h⟩
      simp only [SingleEE.apply, emit, specApply, h1, h2, h3]
      by_cases hn : m = n
      · subst hn
        have : (s.wrapStats && s.stats.isNone) = false := by
          cases hw : s.wrapStats
          · rfl
          · have := h4 hw
            cases hs : s.stats <;> simp_all
        simp [this]
      · simp [hn]
    | discard n =>
      refine ⟨rfl, ?_⟩
      simp only [SingleEE.apply, discard, specApply]
      split
      · exact h
      · refine ⟨by simp, ?_⟩
        intro n' cb' he
        cases he
        exact ⟨h1, h2, h3, by simpa using h4⟩

theorem refine_run (os : List (Op κ β ε)) (s : St κ β) (r) (h : Inv s r) :
    (SingleEE.runOps s os).2 = (specRun r os).2 ∧ Inv (SingleEE.runOps s os).1 (specRun r os).1 := by
  induction os generalizing s r with
  | nil => exact ⟨rfl, h⟩
  | cons o os ih =>
    have h1 := h.apply o
    have h2 := ih _ _ h1.2
    simp only [SingleEE.runOps, specRun]
    exact ⟨by rw [h1.1, h2.1], h2.2⟩

/-- **C19**: for every history the single-listener emitter behaves like a single optional listener: `on` is ignored while one
is registered, an emission of its name calls it once, removing id 0 forgets it, removing any other id does nothing. No
emission accesses missing statistics. -/
theorem C19_refines_single (os : List (Op κ β ε)) :
    (SingleEE.runOps (St.init : St κ β) os).2 = (specRun none os).2 :=
  (refine_run os _ _ ⟨fun _ => rfl, by simp⟩).1

/-- **C19**: a removed listener is released at once: the emitter keeps no copy of it. -/
theorem C19_removed_released (os : List (Op κ β ε)) (c : Bool) :
    (remove (SingleEE.runOps (St.init : St κ β) os).1 c 0).listener = none ∧ (removeAll (SingleEE.runOps (St.init : St κ β) os).1 c).listener = none := by
  simp [removeAll, remove]

theorem keeps_run (n : κ) (os : List (Op κ β ε)) (hk : ∀ o ∈ os, Keeps o) (s : St κ β) (k : Nat) (h1 : s.registered = true) (h2 : s.sub = some n)
    (h3 : s.stats = some k) : (SingleEE.runOps s os).1.stats = some (k + discards n os) := by
  induction os generalizing s k with
  | nil => simp [SingleEE.runOps, discards, h3]
  | cons o os ih =>
    have hk' := fun o' ho' => hk o' (List.mem_cons_of_mem _ ho')
    have ho := hk o List.mem_cons_self
    simp only [SingleEE.runOps]
    cases o with
    | on c m cb =>
      have e : (on s c m cb).1 = s := by simp [on, h1]
      simp only [SingleEE.apply, e]
      rw [ih hk' s k h1 h2 h3]; simp [discards]
    | remove c id =>
      have e : remove s c id = s := if_neg ho
      simp only [SingleEE.apply, e]
      rw [ih hk' s k h1 h2 h3]; simp [discards]
    | removeAll c => exact ho.elim
    | emit m e =>
      simp only [SingleEE.apply]
      rw [ih hk' s k h1 h2 h3]; simp [discards]
    | discard m =>
      simp only [SingleEE.apply, discard]
      by_cases hm : m = n
      · subst hm
        rw [if_neg (by simp [h2]), ih hk' { s with stats := s.stats.map (· + 1) } (k + 1) h1 h2 (by simp [h3])]
        simp [discards]; omega
      · rw [if_pos (by rw [h2]; simp; exact fun e => hm e.symm), ih hk' s k h1 h2 h3]
        simp [discards, hm]

/-- **C19**: the statistics of a listener registered with a container, after any history before and as long as it is not removed, are those of its
own discarded events since it was registered; no other id has statistics. -/
theorem C19_stats (pre os : List (Op κ β ε)) (n : κ) (cb : β) (hpre : (specRun none pre).1 = none) (hk : ∀ o ∈ os, Keeps o) :
    let s := (SingleEE.runOps (SingleEE.runOps (St.init : St κ β) pre).1 (.on true n cb :: os)).1
    getStats s 0 = some (discards n os) ∧ ∀ id, id ≠ 0 → getStats s id = none := by
  have hr : (SingleEE.runOps (St.init : St κ β) pre).1.registered = false := (refine_run pre _ _ ⟨fun _ => rfl, by simp⟩).2.none hpre
  refine ⟨?_, fun id hid => if_neg hid⟩
  show (SingleEE.runOps _ (.on true n cb :: os)).1.stats = _
  simp only [SingleEE.runOps, SingleEE.apply, on, hr, Bool.false_eq_true, if_false]
  rw [keeps_run n os hk _ 0 rfl rfl rfl]
  simp

/-- The hypotheses are met after a history with another listener that was removed. -/
theorem C19_example_stats : getStats (SingleEE.runOps (SingleEE.runOps (St.init : St Nat Char) [.on true 9 'a', .discard 9, (.remove true 0 : Op Nat Char Unit)]).1
    [.on true 8 'b', .discard 8, .discard 9, .remove true 3, .emit 8 (), .discard 8]).1 0 = some 2 := by decide +kernel

/-- **C19**: statistics of a removed listener remain readable and are counted on when it is removed without container. -/
theorem C19_stale_stats :
    let s := (SingleEE.runOps (St.init : St Nat Char)
      [.on true 9 'a', .remove false 0, (.discard 9 : Op Nat Char Unit)]).1
    getStats s 0 = some 1 ∧ s.registered = false := by decide +kernel

example : (SingleEE.runOps (St.init : St Nat Char)
      [.on true 9 'a', .on false 8 'b', .emit 9 1, .emit 8 2, .remove true 5, .emit 9 3, .remove true 0, .emit 9 4,
        .on false 8 'c', .emit 8 5]).2 =
    [.id 0, .id 0, .emitted (.calls [('a', 1)]), .emitted (.calls []), .done, .emitted (.calls [('a', 3)]), .done,
      .emitted (.calls []), .id 0, .emitted (.calls [('c', 5)])] := by decide +kernel

end Verif.SingleEE
