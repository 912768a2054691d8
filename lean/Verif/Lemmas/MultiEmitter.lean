import Verif.Spec.MultiEmitter
import Mathlib.Data.List.Nodup

/-! Lemmas about the multi-listener emitter. -/

namespace Verif.MultiEE
open Verif MultiSpec

variable {κ β ε : Type} [DecidableEq κ]

/-- Refinement relation (and invariant). -/
structure Inv (s : St κ β) (r : Reg κ β) : Prop where
  names : s.names = r.live.map (fun x => (x.lname, x.id))
  subs : ∀ k, s.subs k = (r.live.filter (fun x => decide (x.sub = k))).map Entry.id
  len : s.fns.length = r.next
  fns : ∀ x ∈ r.live, s.fns[x.id]? = some (some x.cb)
  nodup : (r.live.map Entry.id).Nodup
  inj : (r.live.map Entry.lname).Nodup
  bound : ∀ x ∈ r.live, x.id < r.next

theorem Inv.init : Inv (St.init : St κ β) Reg.init := by
  constructor <;> simp [St.init, Reg.init]

omit [DecidableEq κ] in
theorem callAll_eq (s : St κ β) (e : ε) (l : List (Entry κ β)) (h : ∀ x ∈ l, s.fns[x.id]? = some (some x.cb)) :
    callAll s e (l.map Entry.id) = some (l.map (fun x => (x.id, x.cb, e))) := by
  induction l with
  | nil => rfl
  | cons x l ih =>
    simp only [List.map_cons, callAll, h x (by simp), ih (fun y hy => h y (by simp [hy]))]

theorem Inv.apply {s : St κ β} {r : Reg κ β} (h : Inv s r) (o : Op κ β ε) :
    (MultiEE.apply s o).2 = (MultiSpec.apply r o).2 ∧ Inv (MultiEE.apply s o).1 (MultiSpec.apply r o).1 := by
  cases o with
  | on c l n cb =>
    simp only [MultiEE.apply, on, MultiSpec.apply]
    have hfind : s.names.find? (fun p => decide (p.1 = l)) =
        (r.live.find? (fun x => decide (x.lname = l))).map (fun x => (x.lname, x.id)) := by
      rw [h.names, List.find?_map]; rfl
    rw [hfind]
    cases hf : r.live.find? (fun x => decide (x.lname = l)) with
    | some x =>
      refine ⟨by simp, h⟩
    | none =>
      simp only [Option.map_none]
      refine ⟨by rw [h.len], ?_⟩
      rw [List.find?_eq_none] at hf
      constructor
      · simp [h.names, h.len]
      · intro k
        simp only [upd_apply, List.filter_append, List.map_append, h.len]
        by_cases hk : k = n
        · subst hk; simp [h.subs]
        · simp [hk, Ne.symm hk, h.subs]
      · simp [h.len]
      · intro x hx
        rcases List.mem_append.mp hx with hx | hx
        · have := h.bound x hx
          have hl : x.id < s.fns.length := by rw [h.len]; exact this
          simp only
          rw [List.getElem?_append_left hl]; exact h.fns x hx
        · simp at hx; subst hx
          simp only
          rw [← h.len]; simp
      · rw [List.map_append]
        apply List.Nodup.append h.nodup (by simp)
        intro x hx hx'
        simp at hx'
        obtain ⟨y, hy, rfl⟩ := List.mem_map.mp hx
        have := h.bound y hy
        omega
      · rw [List.map_append]
        apply List.Nodup.append h.inj (by simp)
        intro x hx hx'
        simp at hx'
        obtain ⟨y, hy, rfl⟩ := List.mem_map.mp hx
        exact hf y hy (by simpa using hx')
      · intro x hx
        rcases List.mem_append.mp hx with hx | hx
        · have := h.bound x hx; simp; omega
        · simp at hx; subst hx; simp
  | remove c id =>
    refine ⟨rfl, ?_⟩
    simp only [MultiEE.apply, remove, MultiSpec.apply]
    split
    · constructor
      · rw [h.names, List.filter_map]; rfl
      · intro k
        simp only [h.subs]
        have hnd : ((r.live.filter (fun x => decide (x.sub = k))).map Entry.id).Nodup :=
          ((List.filter_sublist).map Entry.id).nodup h.nodup
        rw [hnd.erase_eq_filter]
        rw [List.filter_map, List.filter_filter, List.filter_filter]
        congr 1
        apply List.filter_congr
        intro x _
        rw [Bool.and_comm]
        congr 1
        by_cases hx : x.id = id <;> simp [hx, bne]
      · simp [h.len]
      · intro x hx
        have hx' := List.mem_filter.mp hx
        have : x.id ≠ id := by simpa using hx'.2
        simp only
        rw [List.getElem?_set_ne (Ne.symm this)]
        exact h.fns x hx'.1
      · exact ((List.filter_sublist).map Entry.id).nodup h.nodup
      · exact ((List.filter_sublist).map Entry.lname).nodup h.inj
      · intro x hx; exact h.bound x (List.mem_of_mem_filter hx)
    · rename_i hlt
      have : r.live.filter (fun x => decide (x.id ≠ id)) = r.live := by
        rw [List.filter_eq_self]
        intro x hx
        have := h.bound x hx
        rw [h.len] at hlt
        simp only [decide_eq_true_eq]; omega
      rw [this]; exact h
  | removeAll =>
    refine ⟨rfl, ?_⟩
    simp only [MultiEE.apply, removeAll, MultiSpec.apply]
    constructor <;> simp [Reg.init]
  | emit n e =>
    simp only [MultiEE.apply, emit, MultiSpec.apply]
    rw [h.subs n, callAll_eq s e _ (fun x hx => h.fns x (List.mem_of_mem_filter hx))]
    exact ⟨rfl, h⟩
  | discard n =>
    refine ⟨rfl, ?_⟩
    exact ⟨h.names, h.subs, h.len, h.fns, h.nodup, h.inj, h.bound⟩

theorem refine_run (os : List (Op κ β ε)) (s : St κ β) (r : Reg κ β) (h : Inv s r) :
    (MultiEE.runOps s os).2 = (MultiSpec.runOps r os).2 ∧
    Inv (MultiEE.runOps s os).1 (MultiSpec.runOps r os).1 := by
  induction os generalizing s r with
  | nil => exact ⟨rfl, h⟩
  | cons o os ih =>
    have h1 := h.apply o
    have h2 := ih _ _ h1.2
    simp only [MultiEE.runOps, MultiSpec.runOps]
    exact ⟨by rw [h1.1, h2.1], h2.2⟩

/-! ### Statistics when nothing is removed -/

/-- Invariant of histories without removals in which every registration has a container. -/
structure SInv (s : St κ β) : Prop where
  keys : s.stats.map (·.1) = (List.range s.fns.length).reverse
  ids : ∀ k, ∀ id ∈ s.subs k, id < s.fns.length

theorem SInv.apply {s : St κ β} (h : SInv s) (o : Op κ β ε)
    (ho : (∀ c id, o ≠ .remove c id) ∧ o ≠ .removeAll ∧ (∀ l n cb, o ≠ .on false l n cb)) :
    SInv (MultiEE.apply s o).1 := by
  cases o with
  | on c l n cb =>
    cases c with
    | false => exact absurd rfl (ho.2.2 l n cb)
    | true =>
      simp only [MultiEE.apply, on]
      split
      · exact h
      · constructor
        · simp only [if_true, setStat, List.map_cons, List.length_append, List.length_singleton, List.range_succ,
            List.reverse_append, List.reverse_singleton, List.singleton_append]
          congr 1
          rw [← h.keys]
          congr 1
          rw [List.filter_eq_self]
          intro p hp
          have : p.1 ∈ (List.range s.fns.length).reverse := by rw [← h.keys]; exact List.mem_map_of_mem hp
          simp at this
          simp only [decide_eq_true_eq]; omega
        · intro k id hid
          simp only [upd_apply] at hid
          simp only [List.length_append, List.length_singleton]
          split at hid
          · rcases List.mem_append.mp hid with hid | hid
            · have := h.ids _ id hid; omega
            · simp at hid; omega
          · have := h.ids k id hid; omega
  | remove c id => exact absurd rfl (ho.1 c id)
  | removeAll => exact absurd rfl ho.2.1
  | emit n e =>
    simp only [MultiEE.apply]
    split <;> exact h
  | discard n =>
    simp only [MultiEE.apply, discard]
    refine ⟨?_, h.ids⟩
    rw [← h.keys, List.map_map]
    apply List.map_congr_left
    intro p _
    simp only [Function.comp_apply]
    split <;> rfl

theorem SInv.run {s : St κ β} (h : SInv s) (os : List (Op κ β ε))
    (ho : ∀ o ∈ os, (∀ c id, o ≠ .remove c id) ∧ o ≠ .removeAll ∧ (∀ l n cb, o ≠ .on false l n cb)) :
    SInv (MultiEE.runOps s os).1 := by
  induction os generalizing s with
  | nil => exact h
  | cons o os ih =>
    exact ih (h.apply o (ho o (by simp))) (fun b hb => ho b (by simp [hb]))

theorem live_range (os : List (Op κ β ε))
    (ho : ∀ o ∈ os, (∀ c id, o ≠ .remove c id) ∧ o ≠ .removeAll) (r : Reg κ β)
    (hr : r.live.map Entry.id = List.range r.next) :
    (MultiSpec.runOps r os).1.live.map Entry.id = List.range (MultiSpec.runOps r os).1.next := by
  induction os generalizing r with
  | nil => exact hr
  | cons o os ih =>
    simp only [MultiSpec.runOps]
    apply ih (fun b hb => ho b (by simp [hb]))
    have h1 := ho o (by simp)
    cases o with
    | on c l n cb =>
      simp only [MultiSpec.apply]
      split
      · exact hr
      · simp [hr, List.range_succ]
    | remove c id => exact absurd rfl (h1.1 c id)
    | removeAll => exact absurd rfl h1.2
    | emit n e => exact hr
    | discard n => exact hr

theorem lookup_isSome {l : List (Nat × Nat)} {id : Nat} (h : id ∈ l.map (·.1)) : ∃ v, l.lookup id = some v := by
  induction l with
  | nil => simp at h
  | cons p l ih =>
    obtain ⟨a, b⟩ := p
    by_cases ha : id = a
    · exact ⟨b, by simp [List.lookup, ha]⟩
    · have hb : (id == a) = false := by simpa using ha
      simp only [List.lookup, hb]
      exact ih (by simpa [ha] using h)

theorem lookup_map_inc (l : List (Nat × Nat)) (id : Nat) (f : Nat → Bool) :
    (l.map fun p => if f p.1 then (p.1, p.2 + 1) else p).lookup id =
      (l.lookup id).map (fun v => if f id then v + 1 else v) := by
  induction l with
  | nil => rfl
  | cons p l ih =>
    obtain ⟨a, b⟩ := p
    by_cases ha : id = a
    · subst ha
      by_cases hf : f id <;> simp [List.lookup, hf]
    · have hb : (id == a) = false := by simpa using ha
      by_cases hf : f a <;> simp [List.lookup, hf, hb, ih]

end Verif.MultiEE
