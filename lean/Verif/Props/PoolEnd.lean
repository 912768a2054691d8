import Verif.Model.PoolEnd
import Mathlib.Data.List.Nodup
import Mathlib.Data.List.Perm.Subperm

/-!
Property theorems C70: releasing objects of a pool while it is destroyed.  `Reach n P s`: state `s` can be reached from a pool of `n` objects by
any interleaving of clients and the destroying thread in which every step satisfies `P`.
-/

namespace Verif.PoolEnd

/-- What the destructor has in its hand. -/
def Dtor.hand : Dtor → List Nat
  | .final o => [o]
  | _ => []

structure Inv (n : Nat) (s : St) : Prop where
  nodup : (s.stack ++ s.dtor.hand ++ s.deleted).Nodup
  lt : ∀ o ∈ s.stack ++ s.dtor.hand ++ s.deleted, o < n
  pooled : ∀ o, o < n → (s.obj o = .pooled ↔ o ∈ s.stack ++ s.dtor.hand)
  freed : ∀ o, o < n → (s.obj o = .freed ↔ o ∈ s.deleted)
  high : ∀ o, n ≤ o → s.obj o = .pooled
  fin : ∀ o ∈ s.finalized, o ∈ s.deleted
  finNodup : s.finalized.Nodup
  gone : s.dtor.stackExists = false → s.stack = []

theorem inv_init (n : Nat) : Inv n (St.init n) := by
  refine ⟨by simp [St.init, Dtor.hand, List.nodup_range], by simp [St.init, Dtor.hand], ?_, ?_, fun _ _ => rfl, nofun, List.nodup_nil, nofun⟩
  · intro o ho; simp [St.init, Dtor.hand, ho]
  · intro o ho; simp [St.init]

theorem Inv.step {n : Nat} {s s' : St} {a : Act} (hi : Inv n s) (hs : PoolEnd.step s a = some s') : Inv n s' := by
  cases a with
  | acquire =>
    simp only [PoolEnd.step] at hs
    split at hs <;> simp only [Option.some.injEq, reduceCtorEq] at hs
    rename_i o r hd hst
    subst hs
    have hn := hi.nodup
    have hl := hi.lt
    have hp := hi.pooled
    simp only [hd, hst, Dtor.hand, List.append_nil] at hn hl hp
    have ho : o < n := hl o (by simp)
    simp only [List.cons_append, List.nodup_cons] at hn
    refine ⟨?_, ?_, ?_, ?_, ?_, hi.fin, hi.finNodup, fun h => by simp [hd, Dtor.stackExists] at h⟩
    · simpa [hd, Dtor.hand] using hn.2
    · intro x hx; simp only [hd, Dtor.hand, List.append_nil] at hx; exact hl x (by simp only [List.cons_append]; exact List.mem_cons_of_mem _ hx)
    · intro x hx
      simp only [hd, Dtor.hand, List.append_nil]
      by_cases e : x = o
      · subst e; rw [upd_same]; simp; intro h; exact hn.1 (by simp [h])
      · rw [upd_other _ _ e, hp x hx]; simp [e]
    · intro x hx
      show upd s.obj o .out x = _ ↔ x ∈ s.deleted
      by_cases e : x = o
      · subst e; rw [upd_same]; simp; intro h; exact hn.1 (by simp [h])
      · rw [upd_other _ _ e]; exact hi.freed x hx
    · intro x hx; show upd s.obj o .out x = _; rw [upd_other _ _ (by omega)]; exact hi.high x hx
  | lock o =>
    simp only [PoolEnd.step] at hs
    split at hs
    · rename_i hout
      have ho : o < n := by
        by_cases h : o < n
        · exact h
        · have := hi.high o (by omega); rw [hout] at this; cases this
      have hns : o ∉ s.stack ++ s.dtor.hand := fun h => by have := (hi.pooled o ho).mpr h; rw [hout] at this; cases this
      have hnd : o ∉ s.deleted := fun h => by have := (hi.freed o ho).mpr h; rw [hout] at this; cases this
      split at hs
      · simp only [Option.some.injEq] at hs; subst hs
        refine ⟨hi.nodup, hi.lt, ?_, ?_, ?_, hi.fin, hi.finNodup, hi.gone⟩
        · intro x hx
          by_cases e : x = o
          · subst e; simp only [upd_same]; simp only [reduceCtorEq, false_iff]; exact hns
          · show upd s.obj o .locked x = _ ↔ _; rw [upd_other _ _ e]; exact hi.pooled x hx
        · intro x hx
          by_cases e : x = o
          · subst e; simp only [upd_same]; simp only [reduceCtorEq, false_iff]; exact hnd
          · show upd s.obj o .locked x = _ ↔ _; rw [upd_other _ _ e]; exact hi.freed x hx
        · intro x hx; show upd s.obj o .locked x = _; rw [upd_other _ _ (by omega)]; exact hi.high x hx
      · simp only [Option.some.injEq] at hs; subst hs
        refine ⟨?_, ?_, ?_, ?_, ?_, fun x hx => by show x ∈ s.deleted ++ [o]; simp [hi.fin x hx], hi.finNodup, hi.gone⟩
        · show (s.stack ++ s.dtor.hand ++ (s.deleted ++ [o])).Nodup
          rw [← List.append_assoc, List.nodup_append]
          refine ⟨hi.nodup, List.nodup_singleton _, ?_⟩
          intro a ha b hb
          rw [List.mem_singleton] at hb; subst hb
          rintro rfl
          rcases List.mem_append.mp ha with h | h
          · exact hns h
          · exact hnd h
        · intro x hx
          have hx : x ∈ s.stack ++ s.dtor.hand ++ (s.deleted ++ [o]) := hx
          rw [← List.append_assoc] at hx
          rcases List.mem_append.mp hx with h | h
          · exact hi.lt x h
          · rw [List.mem_singleton] at h; omega
        · intro x hx
          by_cases e : x = o
          · subst e; simp only [upd_same]; simp only [reduceCtorEq, false_iff]; exact hns
          · show upd s.obj o .freed x = _ ↔ _; rw [upd_other _ _ e]; exact hi.pooled x hx
        · intro x hx
          show upd s.obj o .freed x = _ ↔ x ∈ s.deleted ++ [o]
          by_cases e : x = o
          · subst e; simp
          · rw [upd_other _ _ e]; simp [e, hi.freed x hx]
        · intro x hx; show upd s.obj o .freed x = _; rw [upd_other _ _ (by omega)]; exact hi.high x hx
    · cases hs
  | push o =>
    simp only [PoolEnd.step] at hs
    split at hs
    · rename_i hout
      have ho : o < n := by
        by_cases h : o < n
        · exact h
        · have := hi.high o (by omega); rw [hout] at this; cases this
      have hns : o ∉ s.stack ++ s.dtor.hand := fun h => by have := (hi.pooled o ho).mpr h; rw [hout] at this; cases this
      have hnd : o ∉ s.deleted := fun h => by have := (hi.freed o ho).mpr h; rw [hout] at this; cases this
      split at hs
      · rename_i hex
        simp only [Option.some.injEq] at hs; subst hs
        refine ⟨?_, ?_, ?_, ?_, ?_, hi.fin, hi.finNodup, fun h => by rw [show s.dtor.stackExists = _ from h] at hex; cases hex⟩
        · show ((o :: s.stack) ++ s.dtor.hand ++ s.deleted).Nodup
          simp only [List.cons_append, List.nodup_cons]
          refine ⟨fun h => ?_, hi.nodup⟩
          rcases List.mem_append.mp h with h | h
          · exact hns h
          · exact hnd h
        · intro x hx
          have hx : x ∈ (o :: s.stack) ++ s.dtor.hand ++ s.deleted := hx
          simp only [List.cons_append] at hx
          rcases List.mem_cons.mp hx with h | h
          · omega
          · exact hi.lt x h
        · intro x hx
          show upd s.obj o .pooled x = _ ↔ x ∈ (o :: s.stack) ++ s.dtor.hand
          by_cases e : x = o
          · subst e; simp
          · rw [upd_other _ _ e]; simp only [List.cons_append, List.mem_cons, e, false_or]; exact hi.pooled x hx
        · intro x hx
          show upd s.obj o .pooled x = _ ↔ x ∈ s.deleted
          by_cases e : x = o
          · subst e; rw [upd_same]; simp only [reduceCtorEq, false_iff]; exact hnd
          · rw [upd_other _ _ e]; exact hi.freed x hx
        · intro x hx; show upd s.obj o .pooled x = _; rw [upd_other _ _ (by omega)]; exact hi.high x hx
      · simp only [Option.some.injEq] at hs; subst hs
        exact ⟨hi.nodup, hi.lt, hi.pooled, hi.freed, hi.high, hi.fin, hi.finNodup, hi.gone⟩
    · cases hs
  | dtor =>
    simp only [PoolEnd.step] at hs
    cases hd : s.dtor with
    | alive =>
      simp only [hd, Option.some.injEq] at hs; subst hs
      have h1 := hi.nodup; have h2 := hi.lt; have h3 := hi.pooled
      rw [hd] at h1 h2 h3
      exact ⟨h1, h2, h3, hi.freed, hi.high, hi.fin, hi.finNodup, nofun⟩
    | popping =>
      have h1 := hi.nodup; have h2 := hi.lt; have h3 := hi.pooled
      simp only [hd, Dtor.hand, List.append_nil] at h1 h2 h3
      cases hst : s.stack with
      | nil =>
        simp only [hd, hst, Option.some.injEq] at hs; subst hs
        refine ⟨?_, ?_, ?_, hi.freed, hi.high, hi.fin, hi.finNodup, nofun⟩
        · simpa [Dtor.hand, hst] using h1
        · simpa [Dtor.hand, hst] using h2
        · simpa [Dtor.hand, hst] using h3
      | cons o r =>
        simp only [hd, hst, Option.some.injEq] at hs; subst hs
        rw [hst] at h1 h2 h3
        have hp : (r ++ [o] ++ s.deleted).Perm (o :: r ++ s.deleted) := List.Perm.append_right _ (List.perm_append_singleton o r)
        refine ⟨?_, ?_, ?_, hi.freed, hi.high, hi.fin, hi.finNodup, nofun⟩
        · exact hp.nodup_iff.mpr h1
        · intro x hx; exact h2 x (hp.mem_iff.mp hx)
        · intro x hx
          rw [h3 x hx]
          exact ((List.perm_append_singleton o r).mem_iff).symm
    | final o =>
      simp only [hd, Option.some.injEq] at hs; subst hs
      have h1 := hi.nodup; have h2 := hi.lt; have h3 := hi.pooled
      simp only [hd, Dtor.hand] at h1 h2 h3
      have ho : o < n := h2 o (by simp)
      have hp : (s.stack ++ (s.deleted ++ [o])).Perm (s.stack ++ [o] ++ s.deleted) := by
        rw [List.append_assoc]; exact List.Perm.append_left _ List.perm_append_comm
      have hd1 := List.nodup_append.mp h1
      have hno : o ∉ s.deleted := fun h => hd1.2.2 o (by simp) o h rfl
      have hns : o ∉ s.stack := fun h => (List.nodup_append.mp hd1.1).2.2 o h o (by simp) rfl
      refine ⟨?_, ?_, ?_, ?_, ?_, ?_, ?_, nofun⟩
      · simpa [Dtor.hand] using hp.nodup_iff.mpr h1
      · intro x hx; simp only [Dtor.hand, List.append_nil] at hx; exact h2 x (hp.mem_iff.mp hx)
      · intro x hx
        simp only [Dtor.hand, List.append_nil]
        by_cases e : x = o
        · subst e; simp [hns]
        · rw [upd_other _ _ e, h3 x hx]; simp [e]
      · intro x hx
        show upd s.obj o .freed x = _ ↔ x ∈ s.deleted ++ [o]
        by_cases e : x = o
        · subst e; simp
        · rw [upd_other _ _ e]; simp [e, hi.freed x hx]
      · intro x hx; show upd s.obj o .freed x = _; rw [upd_other _ _ (by omega)]; exact hi.high x hx
      · intro x hx
        show x ∈ s.deleted ++ [o]
        rcases List.mem_append.mp hx with h | h
        · simp [hi.fin x h]
        · rw [List.mem_singleton] at h; simp [h]
      · show (s.finalized ++ [o]).Nodup
        rw [List.nodup_append]
        refine ⟨hi.finNodup, List.nodup_singleton _, ?_⟩
        intro a ha b hb
        rw [List.mem_singleton] at hb; subst hb
        rintro rfl
        exact hno (hi.fin _ ha)
    | drained =>
      simp only [hd, Option.some.injEq] at hs; subst hs
      have h1 := hi.nodup; have h2 := hi.lt; have h3 := hi.pooled
      simp only [hd, Dtor.hand, List.append_nil] at h1 h2 h3
      have hp : (s.deleted ++ s.stack).Perm (s.stack ++ s.deleted) := List.perm_append_comm
      refine ⟨?_, ?_, ?_, ?_, ?_, ?_, hi.finNodup, fun _ => rfl⟩
      · simpa [Dtor.hand] using hp.nodup_iff.mpr h1
      · intro x hx; simp only [Dtor.hand, List.append_nil, List.nil_append] at hx; exact h2 x (hp.mem_iff.mp hx)
      · intro x hx
        show (if x ∈ s.stack then Obj.freed else s.obj x) = _ ↔ x ∈ [] ++ []
        split
        · simp
        · rename_i h; rw [h3 x hx]; simp [h]
      · intro x hx
        show (if x ∈ s.stack then Obj.freed else s.obj x) = _ ↔ x ∈ s.deleted ++ s.stack
        split
        · rename_i h; simp [h]
        · rename_i h; rw [hi.freed x hx]; simp [h]
      · intro x hx
        show (if x ∈ s.stack then Obj.freed else s.obj x) = _
        rw [if_neg (fun h => by have := h2 x (by simp [h]); omega)]; exact hi.high x hx
      · intro x hx; show x ∈ s.deleted ++ s.stack; simp [hi.fin x hx]
    | stackGone =>
      simp only [hd, Option.some.injEq] at hs; subst hs
      have h1 := hi.nodup; have h2 := hi.lt; have h3 := hi.pooled
      rw [hd] at h1 h2 h3
      exact ⟨h1, h2, h3, hi.freed, hi.high, hi.fin, hi.finNodup, fun _ => hi.gone (by rw [hd]; rfl)⟩
    | selfGone => simp only [hd] at hs; cases hs

theorem Reach.inv {n : Nat} {P : St → Act → Prop} {s : St} (h : Reach n P s) : Inv n s := by
  induction h with
  | init => exact inv_init n
  | step _ _ hs ih => exact ih.step hs

/-- **C70, freed at most once.** Whatever the schedule, no object is deleted twice and no object is finalized twice; an object with a client is not
deleted. -/
theorem C70_freed_at_most_once {n : Nat} {P : St → Act → Prop} {s : St} (h : Reach n P s) :
    s.deleted.Nodup ∧ s.finalized.Nodup ∧ (∀ o ∈ s.finalized, o ∈ s.deleted) ∧ ∀ o ∈ s.deleted, o < n ∧ s.obj o ≠ .out ∧ s.obj o ≠ .locked := by
  have hi := h.inv
  refine ⟨(List.nodup_append.mp hi.nodup).2.1, hi.finNodup, hi.fin, fun o ho => ?_⟩
  have hlt := hi.lt o (by simp [ho])
  have := (hi.freed o hlt).mpr ho
  exact ⟨hlt, by rw [this]; nofun, by rw [this]; nofun⟩

/-- **C70, freed exactly once at the end.** When the pool is gone and no client has an object, every object was deleted exactly once. -/
theorem C70_all_freed {n : Nat} {P : St → Act → Prop} {s : St} (h : Reach n P s) (hd : s.dtor = .selfGone)
    (ho : ∀ o, o < n → s.obj o ≠ .out ∧ s.obj o ≠ .locked) : s.deleted.Perm (List.range n) := by
  have hi := h.inv
  rw [List.perm_ext_iff_of_nodup (C70_freed_at_most_once h).1 List.nodup_range]
  intro o
  rw [List.mem_range]
  constructor
  · intro h; exact hi.lt o (by simp [h])
  · intro hlt
    refine (hi.freed o hlt).mp ?_
    have hp : s.obj o ≠ .pooled := fun h => by
      have := (hi.pooled o hlt).mp h
      rw [hd, hi.gone (by rw [hd]; rfl)] at this
      cases this
    have := ho o hlt
    cases e : s.obj o with
    | pooled => exact absurd e hp
    | out => exact absurd e this.1
    | locked => exact absurd e this.2
    | freed => rfl

/-- A release does not overlap the destructor: the deleter looks at the pool before the destructor is called or after it has finished, and the
destructor is not called while a deleter is at work. -/
def NoOverlap (s : St) : Act → Prop
  | .lock _ => s.dtor = .alive ∨ s.dtor = .selfGone
  | .dtor => s.dtor = .alive → ∀ o, s.obj o ≠ .locked
  | _ => True

structure Quiet (s : St) : Prop where
  uaf : s.useAfterFree = false
  locked : s.dtor ≠ .alive → ∀ o, s.obj o ≠ .locked
  drained : s.dtor = .drained → s.stack = []
  fin : s.dtor ≠ .selfGone → s.deleted = s.finalized

theorem Reach.quiet {n : Nat} {s : St} (h : Reach n NoOverlap s) : Quiet s := by
  induction h with
  | init => exact ⟨rfl, fun h => absurd rfl h, nofun, fun _ => rfl⟩
  | @step s s' a h hp hs ih =>
    cases a with
    | acquire =>
      simp only [PoolEnd.step] at hs
      split at hs <;> simp only [Option.some.injEq, reduceCtorEq] at hs
      rename_i hd _
      subst hs
      exact ⟨ih.uaf, fun h => absurd hd h, fun h => by (rw [show s.dtor = _ from h] at hd; cases hd), ih.fin⟩
    | lock o =>
      simp only [PoolEnd.step] at hs
      split at hs
      · split at hs
        · rename_i hl
          simp only [Option.some.injEq] at hs; subst hs
          refine ⟨ih.uaf, fun hne => ?_, ih.drained, ih.fin⟩
          rcases hp with hp | hp
          · exact absurd hp hne
          · rw [hp] at hl; cases hl
        · rename_i hl
          simp only [Option.some.injEq] at hs; subst hs
          have hsg : s.dtor = .selfGone := by
            rcases hp with hp | hp
            · rw [hp] at hl; exact absurd rfl hl
            · exact hp
          refine ⟨ih.uaf, fun hne x => ?_, ih.drained, fun h => absurd hsg h⟩
          show upd s.obj o .freed x ≠ _
          by_cases e : x = o
          · subst e; rw [upd_same]; nofun
          · rw [upd_other _ _ e]; exact ih.locked hne x
      · cases hs
    | push o =>
      simp only [PoolEnd.step] at hs
      split at hs
      · rename_i hl
        have hal : s.dtor = .alive := by
          by_cases h : s.dtor = .alive
          · exact h
          · exact absurd hl (ih.locked h o)
        have hex : s.dtor.stackExists = true := by rw [hal]; rfl
        simp only [hex, if_true, Option.some.injEq] at hs
        subst hs
        exact ⟨ih.uaf, fun h => absurd hal h, fun h => by (rw [show s.dtor = _ from h] at hal; cases hal), ih.fin⟩
      · cases hs
    | dtor =>
      have key : ∀ o, s.obj o ≠ .locked := by
        by_cases e : s.dtor = .alive
        · exact hp e
        · exact ih.locked e
      simp only [PoolEnd.step] at hs
      cases hd : s.dtor with
      | alive =>
        simp only [hd, Option.some.injEq] at hs; subst hs
        exact ⟨ih.uaf, fun _ => key, nofun, fun _ => ih.fin (by rw [hd]; nofun)⟩
      | popping =>
        cases hst : s.stack with
        | nil =>
          simp only [hd, hst, Option.some.injEq] at hs; subst hs
          exact ⟨ih.uaf, fun _ => key, fun _ => rfl, fun _ => ih.fin (by rw [hd]; nofun)⟩
        | cons o r =>
          simp only [hd, hst, Option.some.injEq] at hs; subst hs
          exact ⟨ih.uaf, fun _ => key, nofun, fun _ => ih.fin (by rw [hd]; nofun)⟩
      | final o =>
        simp only [hd, Option.some.injEq] at hs; subst hs
        refine ⟨ih.uaf, fun _ x => ?_, nofun, fun _ => ?_⟩
        · show upd s.obj o .freed x ≠ _
          by_cases e : x = o
          · subst e; rw [upd_same]; nofun
          · rw [upd_other _ _ e]; exact key x
        · show s.deleted ++ [o] = s.finalized ++ [o]
          rw [ih.fin (by rw [hd]; nofun)]
      | drained =>
        simp only [hd, Option.some.injEq] at hs; subst hs
        refine ⟨ih.uaf, fun _ x => ?_, nofun, fun _ => ?_⟩
        · show (if x ∈ s.stack then Obj.freed else s.obj x) ≠ _
          split
          · nofun
          · exact key x
        · show s.deleted ++ s.stack = s.finalized
          rw [ih.drained hd, List.append_nil, ih.fin (by rw [hd]; nofun)]
      | stackGone =>
        simp only [hd, Option.some.injEq] at hs; subst hs
        exact ⟨ih.uaf, fun _ => key, nofun, fun h => absurd rfl h⟩
      | selfGone => simp only [hd] at hs; cases hs

/-- **C70, releases before and after.** If no release overlaps the destructor, nothing touches freed memory.
Missing: releases during the destructor (`C70_violation_*`). -/
theorem C70_no_overlap_partial {n : Nat} {s : St} (h : Reach n NoOverlap s) : s.useAfterFree = false := h.quiet.uaf

/-- **C70, finalized or out.** If no release overlaps the destructor, every object is finalized by it, unless a client has it.
Missing: releases during the destructor (`C70_violation_not_finalized`). -/
theorem C70_finalized_or_out_partial {n : Nat} {s : St} (h : Reach n NoOverlap s) (hd : s.dtor = .stackGone) {o : Nat} (ho : o < n) :
    o ∈ s.finalized ∨ s.obj o = .out := by
  have hi := h.inv
  have hq := h.quiet
  cases e : s.obj o with
  | pooled =>
    have := (hi.pooled o ho).mp e
    rw [hd, hi.gone (by rw [hd]; rfl)] at this
    cases this
  | out => exact .inr rfl
  | locked => exact absurd e (hq.locked (by rw [hd]; nofun) o)
  | freed => exact .inl (by rw [← hq.fin (by rw [hd]; nofun)]; exact (hi.freed o ho).mp e)

/-- **C70, finding.** An object released while the destructor runs can be pushed to a stack that is already deleted: the deleter locks `this_ptr_`,
which protects the pointer to the pool and not the pool. -/
theorem C70_violation_lock_then_delete : (run (St.init 1) [.acquire, .lock 0, .dtor, .dtor, .dtor, .push 0]).map (fun s => (s.useAfterFree, s.dtor)) =
    some (true, .stackGone) := by decide +kernel

/-- **C70, finding.** Even a release that starts after `delete pool_` succeeds in locking, because the members are destroyed after the body. -/
theorem C70_violation_lock_after_delete : (run (St.init 1) [.acquire, .dtor, .dtor, .dtor, .lock 0, .push 0]).map (fun s => (s.useAfterFree, s.dtor)) =
    some (true, .stackGone) := by decide +kernel

/-- **C70, finding.** A client whose deleter has locked can be overtaken by the whole destructor. -/
theorem C70_violation_pool_gone : (run (St.init 1) [.acquire, .lock 0, .dtor, .dtor, .dtor, .dtor, .push 0]).map (fun s => (s.useAfterFree, s.dtor)) =
    some (true, .selfGone) := by decide +kernel

/-- **C70, finding.** An object that comes back after the last `pop` is deleted without being finalized, although it was returned to a living pool. -/
theorem C70_violation_not_finalized : (run (St.init 2) [.acquire, .dtor, .dtor, .dtor, .dtor, .lock 0, .push 0, .dtor, .dtor]).map
    (fun s => (s.useAfterFree, s.finalized, s.deleted)) = some (false, [1], [1, 0]) := by decide +kernel

/-- Non-vacuity: releases before and after the destructor. -/
theorem C70_example : ∃ s, Reach 3 NoOverlap s ∧ s.finalized = [0, 2] ∧ s.deleted = [0, 2, 1] ∧ s.dtor = .selfGone := by
  -- acquire 0 and 1, release 0
  have r1 : Reach 3 NoOverlap { St.init 3 with stack := [1, 2], obj := upd (St.init 3).obj 0 .out } := .step (a := .acquire) .init trivial rfl
  have r2 := Reach.step r1 (a := .acquire) trivial rfl
  have r3 := Reach.step r2 (a := .lock 0) (.inl rfl) rfl
  have r4 := Reach.step r3 (a := .push 0) trivial rfl
  have r5 := Reach.step r4 (a := .dtor) (by
    intro _ o
    show upd _ 0 _ o ≠ _
    by_cases e : o = 0
    · subst e; rw [upd_same]; nofun
    · rw [upd_other _ _ e]
      show upd _ 0 _ o ≠ _
      rw [upd_other _ _ e]
      show upd _ 1 _ o ≠ _
      by_cases e1 : o = 1
      · subst e1; rw [upd_same]; nofun
      · rw [upd_other _ _ e1]
        show upd _ 0 _ o ≠ _
        rw [upd_other _ _ e]; nofun) rfl
  have r6 := Reach.step r5 (a := .dtor) nofun rfl
  have r7 := Reach.step r6 (a := .dtor) nofun rfl
  have r8 := Reach.step r7 (a := .dtor) nofun rfl
  have r9 := Reach.step r8 (a := .dtor) nofun rfl
  have r10 := Reach.step r9 (a := .dtor) nofun rfl
  have r11 := Reach.step r10 (a := .dtor) nofun rfl
  have r12 := Reach.step r11 (a := .dtor) nofun rfl
  have r13 := Reach.step r12 (a := .lock 1) (.inr rfl) rfl
  exact ⟨_, r13, rfl, rfl, rfl⟩

end Verif.PoolEnd
