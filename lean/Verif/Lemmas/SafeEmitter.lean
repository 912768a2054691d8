import Verif.Spec.Emitter
import Mathlib.Data.List.Nodup
import Mathlib.Data.List.Perm.Basic

/-! Lemmas about the `SafeEventEmitter` model. -/

namespace Verif.SafeEE
open Verif

variable {κ β ε : Type} [LinearOrder κ]

/-- Sorted by key. -/
def Sorted (l : List (κ × β)) : Prop := l.Pairwise (fun a b => a.1 ≤ b.1)

theorem mmInsert_perm (k : κ) (v : β) (l : List (κ × β)) : (mmInsert k v l).Perm ((k, v) :: l) := by
  induction l with
  | nil => exact List.Perm.refl _
  | cons a l ih =>
    obtain ⟨k', v'⟩ := a
    unfold mmInsert
    split
    · exact List.Perm.refl _
    · exact (List.Perm.cons _ ih).trans (List.Perm.swap _ _ _)

theorem mmInsert_sorted (k : κ) (v : β) (l : List (κ × β)) (h : Sorted l) : Sorted (mmInsert k v l) := by
  induction l with
  | nil => simp [mmInsert, Sorted]
  | cons a l ih =>
    obtain ⟨k', v'⟩ := a
    have h' := List.pairwise_cons.mp h
    unfold mmInsert
    split
    · rename_i hlt
      refine List.pairwise_cons.mpr ⟨fun b hb => ?_, h⟩
      rcases List.mem_cons.mp hb with rfl | hb
      · exact le_of_lt hlt
      · exact le_trans (le_of_lt hlt) (h'.1 b hb)
    · rename_i hlt
      refine List.pairwise_cons.mpr ⟨fun b hb => ?_, ih h'.2⟩
      have := (mmInsert_perm k v l).mem_iff.mp hb
      rcases List.mem_cons.mp this with rfl | hb
      · exact le_of_not_gt hlt
      · exact h'.1 b hb

theorem filter_key_eq_nil {l : List (κ × β)} {k : κ} (h : ∀ b ∈ l, k < b.1) :
    l.filter (fun p => decide (p.1 = k)) = [] := by
  rw [List.filter_eq_nil_iff]
  intro b hb hk
  have := h b hb
  simp at hk
  rw [hk] at this
  exact lt_irrefl _ this

theorem mmInsert_filter (k : κ) (v : β) (l : List (κ × β)) (h : Sorted l) (k' : κ) :
    (mmInsert k v l).filter (fun p => decide (p.1 = k')) =
      l.filter (fun p => decide (p.1 = k')) ++ (if k = k' then [(k, v)] else []) := by
  induction l with
  | nil => by_cases hk : k = k' <;> simp [mmInsert, hk]
  | cons a l ih =>
    obtain ⟨k1, v1⟩ := a
    have h' := List.pairwise_cons.mp h
    unfold mmInsert
    split
    · rename_i hlt
      by_cases hk : k = k'
      · subst hk
        have hn : ((k1, v1) :: l).filter (fun p => decide (p.1 = k)) = [] := by
          apply filter_key_eq_nil
          intro b hb
          rcases List.mem_cons.mp hb with rfl | hb
          · exact hlt
          · exact lt_of_lt_of_le hlt (h'.1 b hb)
        rw [List.filter_cons, hn]; simp
      · rw [List.filter_cons]; simp [hk]
    · rw [List.filter_cons, ih h'.2, List.filter_cons]
      split <;> simp

theorem equalRange_eq (l : List (κ × β)) (h : Sorted l) (k : κ) :
    equalRange l k = l.filter (fun p => decide (p.1 = k)) := by
  induction l with
  | nil => rfl
  | cons a l ih =>
    have h' := List.pairwise_cons.mp h
    unfold equalRange at *
    by_cases hlt : a.1 < k
    · rw [List.dropWhile_cons_of_pos (by simpa using hlt), ih h'.2,
        List.filter_cons_of_neg (by simpa using ne_of_lt hlt)]
    · rw [List.dropWhile_cons_of_neg (by simpa using hlt)]
      -- from here on no key is below k
      have key : ∀ m : List (κ × β), Sorted m → (∀ b ∈ m, k ≤ b.1) →
          m.takeWhile (fun p => decide (¬ k < p.1)) = m.filter (fun p => decide (p.1 = k)) := by
        intro m
        induction m with
        | nil => simp
        | cons b m ihm =>
          intro hm hb
          have hm' := List.pairwise_cons.mp hm
          by_cases hk : b.1 = k
          · rw [List.takeWhile_cons_of_pos (by simp [hk]), List.filter_cons_of_pos (by simpa using hk),
              ihm hm'.2 (fun c hc => hb c (by simp [hc]))]
          · have hgt : k < b.1 := lt_of_le_of_ne (hb b (by simp)) (Ne.symm hk)
            rw [List.takeWhile_cons_of_neg (by simp [hgt])]
            symm
            apply filter_key_eq_nil
            intro c hc
            rcases List.mem_cons.mp hc with rfl | hc
            · exact hgt
            · exact lt_of_lt_of_le hgt (hm'.1 c hc)
      apply key _ h
      intro b hb
      rcases List.mem_cons.mp hb with rfl | hb
      · exact le_of_not_gt hlt
      · exact le_trans (le_of_not_gt hlt) (h'.1 b hb)

theorem eraseFirst_eq_filter {γ : Type} (f : γ → Nat) (l : List γ) (h : (l.map f).Nodup) (n : Nat) :
    eraseFirst (fun x => f x == n) l = l.filter (fun x => decide (f x ≠ n)) := by
  induction l with
  | nil => rfl
  | cons a l ih =>
    simp only [List.map_cons, List.nodup_cons] at h
    unfold eraseFirst
    by_cases hn : f a = n
    · simp only [hn, beq_self_eq_true, if_true, ne_eq, not_true, decide_false, List.filter_cons]
      symm
      simp only [Bool.false_eq_true, if_false]
      rw [List.filter_eq_self]
      intro b hb
      simp only [decide_eq_true_eq]
      intro hbn
      apply h.1
      rw [hn, ← hbn]
      exact List.mem_map_of_mem hb
    · have : (f a == n) = false := by simpa using hn
      simp only [this, Bool.false_eq_true, if_false, ih h.2, List.filter_cons]
      simp [hn]

/-- Ids of the listeners. -/
def ids (l : List (κ × Lis β)) : List Nat := l.map (fun p => p.2.id)

theorem removeListener_eq (s : St κ β) (id : Nat) (hn : (ids s.listeners).Nodup) :
    removeListener s id = if id ∈ ids s.listeners
      then some { s with listeners := s.listeners.filter (fun p => decide (p.2.id ≠ id)) } else none := by
  unfold removeListener
  rw [eraseFirst_eq_filter (fun p : κ × Lis β => p.2.id) _ hn]
  have : (s.listeners.any (fun p => p.2.id == id) = true) ↔ id ∈ ids s.listeners := by
    simp only [List.any_eq_true, ids, List.mem_map, beq_iff_eq]
  by_cases h : id ∈ ids s.listeners
  · rw [if_pos (this.mpr h), if_pos h]
  · rw [if_neg (fun h' => h (this.mp h')), if_neg h]

theorem emitLoop_eq (e : ε) (hs : List (Lis β)) (s : St κ β) (hn : (ids s.listeners).Nodup)
    (hh : (hs.map Lis.id).Nodup) (hm : ∀ h ∈ hs, ∃ k, (k, h) ∈ s.listeners) :
    emitLoop s e hs =
      ({ s with listeners := s.listeners.filter (fun p => decide (¬ (p.2.id ∈ hs.map Lis.id ∧ p.2.isOnce))) },
        hs.map (fun h => (h.id, h.cb, e)), false) := by
  induction hs generalizing s with
  | nil => simp [emitLoop]
  | cons h hs ih =>
    simp only [List.map_cons, List.nodup_cons] at hh
    obtain ⟨k, hk⟩ := hm h (by simp)
    have inj : ∀ p ∈ s.listeners, p.2.id = h.id → p = (k, h) := by
      intro p hp he
      exact List.inj_on_of_nodup_map hn hp hk he
    unfold emitLoop
    by_cases ho : h.isOnce
    · simp only [ho, if_true]
      rw [removeListener_eq s h.id hn, if_pos (show h.id ∈ ids s.listeners from List.mem_map.mpr ⟨_, hk, rfl⟩)]
      simp only
      have hsub : (s.listeners.filter (fun p => decide (p.2.id ≠ h.id))).Sublist s.listeners := List.filter_sublist
      rw [ih { s with listeners := s.listeners.filter (fun p => decide (p.2.id ≠ h.id)) } ((hsub.map _).nodup hn) hh.2]
      · simp only [List.filter_filter, List.map_cons, Prod.mk.injEq, and_true]
        congr 1
        apply List.filter_congr
        intro p hp
        simp only [Bool.decide_and, decide_not, ← Bool.decide_and, ← decide_not]
        apply decide_eq_decide.mpr
        constructor
        · rintro ⟨h1, h2⟩ ⟨h3, h4⟩
          rcases List.mem_cons.mp h3 with h5 | h5
          · exact h2 h5
          · exact h1 ⟨h5, h4⟩
        · intro h1
          refine ⟨fun h2 => h1 ⟨List.mem_cons_of_mem _ h2.1, h2.2⟩, fun h2 => ?_⟩
          refine h1 ⟨by simp [h2], ?_⟩
          rw [inj p hp h2]; exact ho
      · intro g hg
        obtain ⟨k', hk'⟩ := hm g (by simp [hg])
        refine ⟨k', List.mem_filter.mpr ⟨hk', ?_⟩⟩
        simp only [decide_eq_true_eq]
        intro he
        exact hh.1 (he ▸ List.mem_map_of_mem hg)
    · simp only [ho]
      rw [ih _ hn hh.2 (fun g hg => hm g (by simp [hg]))]
      simp only [List.map_cons, Bool.false_eq_true, if_false, Prod.mk.injEq, and_true]
      congr 1
      apply List.filter_congr
      intro p hp
      apply decide_eq_decide.mpr
      constructor
      · rintro h1 ⟨h3, h4⟩
        rcases List.mem_cons.mp h3 with h5 | h5
        · rw [inj p hp h5] at h4; exact ho h4
        · exact h1 ⟨h5, h4⟩
      · intro h1 h2
        exact h1 ⟨List.mem_cons_of_mem _ h2.1, h2.2⟩

/-! ### Refinement -/

open EmitterSpec

/-- Entry of the specification for a listener. -/
def toEntry (p : κ × Lis β) : Entry κ β := ⟨p.2.id, p.1, p.2.isOnce, p.2.cb⟩

/-- Refinement relation. -/
structure R (s : St κ β) (r : Reg κ β) : Prop where
  last : s.last = r.count
  sorted : Sorted s.listeners
  perm : (s.listeners.map toEntry).Perm r.live
  filt : ∀ k, (s.listeners.map toEntry).filter (fun x => decide (x.name = k)) = r.live.filter (fun x => decide (x.name = k))
  nodup : (r.live.map Entry.id).Nodup
  bound : ∀ x ∈ r.live, x.id ≤ r.count

theorem R.ids_nodup {s : St κ β} {r : Reg κ β} (h : R s r) : (ids s.listeners).Nodup := by
  have : (ids s.listeners).Perm (r.live.map Entry.id) := by
    have := h.perm.map Entry.id
    simpa [ids, toEntry, Function.comp_def] using this
  exact this.nodup_iff.mpr h.nodup

theorem R.mem_ids {s : St κ β} {r : Reg κ β} (h : R s r) (id : Nat) :
    id ∈ ids s.listeners ↔ ∃ x ∈ r.live, x.id = id := by
  have : (ids s.listeners).Perm (r.live.map Entry.id) := by
    have := h.perm.map Entry.id
    simpa [ids, toEntry, Function.comp_def] using this
  rw [this.mem_iff, List.mem_map]

theorem R.init : R (St.init : St κ β) Reg.init := by
  constructor <;> simp [St.init, Reg.init, Sorted]

theorem R.filter {s : St κ β} {r : Reg κ β} (h : R s r) (f : Entry κ β → Bool) :
    R { s with listeners := s.listeners.filter (fun p => f (toEntry p)) } { r with live := r.live.filter f } := by
  have e : (s.listeners.filter (fun p => f (toEntry p))).map toEntry = (s.listeners.map toEntry).filter f := by
    rw [List.filter_map]; rfl
  constructor
  · exact h.last
  · exact List.Pairwise.filter _ h.sorted
  · rw [e]; exact h.perm.filter f
  · intro k
    simp only [e, List.filter_filter]
    have := congrArg (List.filter f) (h.filt k)
    simp only [List.filter_filter] at this
    simpa only [Bool.and_comm] using this
  · exact ((List.filter_sublist (l := r.live) (p := f)).map Entry.id).nodup h.nodup
  · intro x hx; exact h.bound x (List.mem_of_mem_filter hx)

theorem R.add {s : St κ β} {r : Reg κ β} (h : R s r) (hc : r.count + 1 < 2 ^ 32) (n : κ) (o : Bool) (cb : β) :
    (addListener s n o cb).2 = r.count + 1 ∧
    R (addListener s n o cb).1 ⟨r.count + 1, r.live ++ [⟨r.count + 1, n, o, cb⟩]⟩ := by
  have hid : (s.last + 1) % 2 ^ 32 = r.count + 1 := by rw [h.last]; exact Nat.mod_eq_of_lt hc
  refine ⟨hid, ?_⟩
  unfold addListener
  simp only [hid]
  set l : Lis β := ⟨r.count + 1, o, cb, if o then none else some 0⟩
  have ht : toEntry (n, l) = ⟨r.count + 1, n, o, cb⟩ := rfl
  constructor
  · rfl
  · exact mmInsert_sorted _ _ _ h.sorted
  · have := (mmInsert_perm n l s.listeners).map toEntry
    refine this.trans ?_
    simp only [List.map_cons, ht]
    exact ((List.Perm.cons _ h.perm)).trans (List.perm_append_singleton _ _).symm
  · intro k
    have e := mmInsert_filter n l s.listeners h.sorted k
    have f : ∀ m : List (κ × Lis β), (m.map toEntry).filter (fun x => decide (x.name = k)) =
        (m.filter (fun p => decide (p.1 = k))).map toEntry := by
      intro m; rw [List.filter_map]; rfl
    rw [f, e, List.map_append, ← f, h.filt k, List.filter_append]
    by_cases hk : n = k <;> simp [hk, ht]
    rfl
  · rw [List.map_append]
    apply List.Nodup.append h.nodup (by simp)
    intro x hx hx'
    simp at hx'
    obtain ⟨y, hy, rfl⟩ := List.mem_map.mp hx
    have := h.bound y hy
    omega
  · intro x hx
    rcases List.mem_append.mp hx with hx | hx
    · have := h.bound x hx; simp; omega
    · simp at hx; subst hx; simp

theorem R.handlers_eq {s : St κ β} {r : Reg κ β} (h : R s r) (n : κ) :
    handlers s n = (s.listeners.filter (fun p => decide (p.1 = n))).map (·.2) := by
  unfold handlers; rw [equalRange_eq _ h.sorted]

theorem R.handlers_entries {s : St κ β} {r : Reg κ β} (h : R s r) (n : κ) :
    (handlers s n).map (fun l => (l.id, l.cb)) =
      (r.live.filter (fun x => decide (x.name = n))).map (fun x => (x.id, x.cb)) := by
  rw [h.handlers_eq, ← h.filt n, List.filter_map, List.map_map, List.map_map]
  rfl

theorem R.apply {s : St κ β} {r : Reg κ β} (h : R s r) (o : Op κ β ε)
    (hc : r.count + 1 < 2 ^ 32 ∨ (∀ n cb, o ≠ .on n cb) ∧ (∀ n cb, o ≠ .once n cb)) :
    (SafeEE.apply s o).2 = (EmitterSpec.apply r o).2 ∧ R (SafeEE.apply s o).1 (EmitterSpec.apply r o).1 := by
  cases o with
  | on n cb =>
    have hc : r.count + 1 < 2 ^ 32 := by
      rcases hc with hc | hc
      · exact hc
      · exact absurd rfl (hc.1 n cb)
    have := h.add hc n false cb
    exact ⟨by simp only [SafeEE.apply, on, EmitterSpec.apply, this.1], this.2⟩
  | once n cb =>
    have hc : r.count + 1 < 2 ^ 32 := by
      rcases hc with hc | hc
      · exact hc
      · exact absurd rfl (hc.2 n cb)
    have := h.add hc n true cb
    exact ⟨by simp only [SafeEE.apply, once, EmitterSpec.apply, this.1], this.2⟩
  | remove id =>
    simp only [SafeEE.apply, EmitterSpec.apply]
    rw [removeListener_eq s id h.ids_nodup]
    by_cases hm : id ∈ ids s.listeners
    · rw [if_pos hm, if_pos ((h.mem_ids id).mp hm)]
      exact ⟨rfl, h.filter (fun x => decide (x.id ≠ id))⟩
    · rw [if_neg hm, if_neg (fun h' => hm ((h.mem_ids id).mpr h'))]
      exact ⟨rfl, h⟩
  | removeAll =>
    refine ⟨rfl, ?_⟩
    simp only [SafeEE.apply, removeAll, EmitterSpec.apply]
    exact ⟨h.last, by simp [Sorted], by simp, by simp, by simp, by simp⟩
  | emit n e =>
    simp only [SafeEE.apply, emit, EmitterSpec.apply]
    have he := h.handlers_eq n
    have hmem : ∀ g ∈ handlers s n, (n, g) ∈ s.listeners := by
      intro g hg
      rw [he] at hg
      obtain ⟨p, hp, rfl⟩ := List.mem_map.mp hg
      have := List.mem_filter.mp hp
      have h2 : p.1 = n := by simpa using this.2
      rw [← h2]; exact this.1
    have hnd : ((handlers s n).map Lis.id).Nodup := by
      rw [he, List.map_map]
      exact ((List.filter_sublist (l := s.listeners)).map (fun p : κ × Lis β => p.2.id)).nodup h.ids_nodup
    rw [emitLoop_eq e _ s h.ids_nodup hnd (fun g hg => ⟨n, hmem g hg⟩)]
    constructor
    · simp only [Res.calls.injEq, and_true]
      have := congrArg (List.map (fun q : Nat × β => (q.1, q.2, e))) (h.handlers_entries n)
      simpa [List.map_map, Function.comp_def] using this
    · have := h.filter (fun x => decide (¬ (x.name = n ∧ x.isOnce)))
      convert this using 2
      apply List.filter_congr
      intro p hp
      apply decide_eq_decide.mpr
      apply not_congr
      apply and_congr_left
      intro _
      simp only [toEntry, List.mem_map]
      constructor
      · rintro ⟨g, hg, hid⟩
        have := List.inj_on_of_nodup_map h.ids_nodup (hmem g hg) hp hid
        rw [← this]
      · intro hn
        refine ⟨p.2, ?_, rfl⟩
        rw [he]
        exact List.mem_map_of_mem (List.mem_filter.mpr ⟨hp, by simpa using hn⟩)
  | discard n =>
    refine ⟨rfl, ?_⟩
    simp only [SafeEE.apply, discard, EmitterSpec.apply]
    have e : ∀ p : κ × Lis β, toEntry (if p.1 = n then (p.1, { p.2 with disc := p.2.disc.map (· + 1) }) else p) = toEntry p := by
      intro p; split <;> rfl
    have e' : (s.listeners.map fun p => if p.1 = n then (p.1, { p.2 with disc := p.2.disc.map (· + 1) }) else p).map toEntry
        = s.listeners.map toEntry := by
      rw [List.map_map]; apply List.map_congr_left; intro p _; exact e p
    refine ⟨h.last, ?_, by rw [e']; exact h.perm, by rw [e']; exact h.filt, h.nodup, h.bound⟩
    unfold Sorted
    rw [List.pairwise_map]
    refine List.Pairwise.imp ?_ h.sorted
    intro a b hab
    split <;> split <;> exact hab

omit [LinearOrder κ] in
theorem spec_count [DecidableEq κ] (r : Reg κ β) (o : Op κ β ε) :
    (EmitterSpec.apply r o).1.count = r.count + registrations [o] := by
  cases o <;> simp [EmitterSpec.apply, registrations]
  split <;> rfl

omit [LinearOrder κ] in
theorem registrations_cons (o : Op κ β ε) (os) : registrations (o :: os) = registrations [o] + registrations os := by
  cases o <;> simp [registrations] <;> omega

theorem refine_run (os : List (Op κ β ε)) (s : St κ β) (r : Reg κ β) (h : R s r)
    (hc : r.count + registrations os < 2 ^ 32) :
    (SafeEE.runOps s os).2 = (EmitterSpec.runOps r os).2 ∧
    R (SafeEE.runOps s os).1 (EmitterSpec.runOps r os).1 := by
  induction os generalizing s r with
  | nil => exact ⟨rfl, h⟩
  | cons o os ih =>
    rw [registrations_cons] at hc
    have h1 := h.apply o (by
      cases o with
      | on n cb => left; simp [registrations] at hc; omega
      | once n cb => left; simp [registrations] at hc; omega
      | _ => right; constructor <;> intros <;> simp)
    have h2 := ih _ _ h1.2 (by rw [spec_count]; omega)
    simp only [SafeEE.runOps, EmitterSpec.runOps]
    exact ⟨by rw [h1.1, h2.1], h2.2⟩

/-! ### Facts about the specification -/

section spec
omit [LinearOrder κ]
variable [DecidableEq κ]

theorem spec_retIds (os : List (Op κ β ε)) (r : Reg κ β) :
    (retIds (EmitterSpec.runOps r os).2).Nodup ∧ ∀ n ∈ retIds (EmitterSpec.runOps r os).2, r.count < n := by
  induction os generalizing r with
  | nil => simp [EmitterSpec.runOps, retIds]
  | cons o os ih =>
    have hc := spec_count r o
    obtain ⟨h1, h2⟩ := ih (EmitterSpec.apply r o).1
    simp only [EmitterSpec.runOps]
    rw [hc] at h2
    cases o with
    | on n cb =>
      simp only [EmitterSpec.apply, retIds, registrations] at *
      refine ⟨List.nodup_cons.mpr ⟨fun h => ?_, h1⟩, fun m hm => ?_⟩
      · have := h2 _ h; omega
      · rcases List.mem_cons.mp hm with rfl | hm
        · omega
        · have := h2 _ hm; omega
    | once n cb =>
      simp only [EmitterSpec.apply, retIds, registrations] at *
      refine ⟨List.nodup_cons.mpr ⟨fun h => ?_, h1⟩, fun m hm => ?_⟩
      · have := h2 _ h; omega
      · rcases List.mem_cons.mp hm with rfl | hm
        · omega
        · have := h2 _ hm; omega
    | remove id =>
      have : retIds ((EmitterSpec.apply r (.remove id : Op κ β ε)).2 :: (EmitterSpec.runOps (EmitterSpec.apply r (.remove id : Op κ β ε)).1 os).2)
          = retIds (EmitterSpec.runOps (EmitterSpec.apply r (.remove id : Op κ β ε)).1 os).2 := by
        simp only [EmitterSpec.apply]; split <;> rfl
      rw [this]
      exact ⟨h1, fun m hm => by have := h2 m hm; simp [registrations] at this; omega⟩
    | removeAll => exact ⟨h1, h2⟩
    | emit n e => exact ⟨h1, h2⟩
    | discard n => exact ⟨h1, h2⟩

/-- An id that is not live and not in the future is never called again. -/
theorem spec_dead (os : List (Op κ β ε)) (r : Reg κ β) (id : Nat) (h1 : ∀ x ∈ r.live, x.id ≠ id) (h2 : id ≤ r.count) :
    callCount id (EmitterSpec.runOps r os).2 = 0 := by
  induction os generalizing r with
  | nil => rfl
  | cons o os ih =>
    have hc := spec_count r o
    have key : (∀ x ∈ (EmitterSpec.apply r o).1.live, x.id ≠ id) := by
      cases o with
      | on n cb =>
        intro x hx
        rcases List.mem_append.mp hx with hx | hx
        · exact h1 x hx
        · simp at hx; subst hx; simp; omega
      | once n cb =>
        intro x hx
        rcases List.mem_append.mp hx with hx | hx
        · exact h1 x hx
        · simp at hx; subst hx; simp; omega
      | remove i =>
        simp only [EmitterSpec.apply]
        split
        · intro x hx; exact h1 x (List.mem_of_mem_filter hx)
        · exact h1
      | removeAll => simp [EmitterSpec.apply]
      | emit n e =>
        intro x hx; exact h1 x (List.mem_of_mem_filter hx)
      | discard n => exact h1
    have := ih (EmitterSpec.apply r o).1 key (by omega)
    simp only [EmitterSpec.runOps]
    cases o with
    | remove i =>
      have e : callCount id ((EmitterSpec.apply r (.remove i : Op κ β ε)).2 :: (EmitterSpec.runOps (EmitterSpec.apply r (.remove i : Op κ β ε)).1 os).2)
          = callCount id (EmitterSpec.runOps (EmitterSpec.apply r (.remove i : Op κ β ε)).1 os).2 := by
        simp only [EmitterSpec.apply]; split <;> rfl
      rw [e]; exact this
    | emit n e =>
      simp only [EmitterSpec.apply, callCount] at *
      rw [this, Nat.add_zero, List.countP_eq_zero]
      intro c hc'
      obtain ⟨x, hx, rfl⟩ := List.mem_map.mp hc'
      have := h1 x (List.mem_of_mem_filter hx)
      simpa using this
    | _ => simpa [EmitterSpec.apply, callCount] using this

/-- Well-formed registry. -/
structure RegOk (r : Reg κ β) : Prop where
  nodup : (r.live.map Entry.id).Nodup
  bound : ∀ x ∈ r.live, x.id ≤ r.count

theorem countP_id_le_one {l : List (Entry κ β)} (h : (l.map Entry.id).Nodup) (e : ε) (id : Nat) :
    (l.map (fun x => (x.id, x.cb, e))).countP (fun c => c.1 == id) ≤ 1 := by
  induction l with
  | nil => simp
  | cons x l ih =>
    simp only [List.map_cons, List.nodup_cons] at h
    simp only [List.map_cons, List.countP_cons]
    by_cases hx : x.id = id
    · have : (l.map (fun x => (x.id, x.cb, e))).countP (fun c => c.1 == id) = 0 := by
        rw [List.countP_eq_zero]
        intro c hc
        obtain ⟨y, hy, rfl⟩ := List.mem_map.mp hc
        simp only [beq_iff_eq]
        intro hy'
        exact h.1 (by rw [hx, ← hy']; exact List.mem_map_of_mem hy)
      rw [this]; split <;> omega
    · have := ih h.2
      have hb : (x.id == id) = false := by simpa using hx
      simp only [hb]; simpa using this

theorem RegOk.apply {r : Reg κ β} (h : RegOk r) (o : Op κ β ε) : RegOk (EmitterSpec.apply r o).1 := by
  have hadd : ∀ n b cb, RegOk (⟨r.count + 1, r.live ++ [⟨r.count + 1, n, b, cb⟩]⟩ : Reg κ β) := by
    intro n b cb
    constructor
    · rw [List.map_append]
      apply List.Nodup.append h.nodup (by simp)
      intro x hx hx'
      simp at hx'
      obtain ⟨y, hy, rfl⟩ := List.mem_map.mp hx
      have := h.bound y hy
      omega
    · intro x hx
      rcases List.mem_append.mp hx with hx | hx
      · have := h.bound x hx; simp; omega
      · simp at hx; subst hx; simp
  have hf : ∀ f : Entry κ β → Bool, RegOk { r with live := r.live.filter f } := fun f =>
    ⟨((List.filter_sublist (l := r.live) (p := f)).map Entry.id).nodup h.nodup,
      fun x hx => h.bound x (List.mem_of_mem_filter hx)⟩
  cases o with
  | on n cb => exact hadd n false cb
  | once n cb => exact hadd n true cb
  | remove i =>
    simp only [EmitterSpec.apply]; split
    · exact hf _
    · exact h
  | removeAll => exact ⟨by simp [EmitterSpec.apply], by simp [EmitterSpec.apply]⟩
  | emit n e => exact hf _
  | discard n => exact h

theorem RegOk.runOps {r : Reg κ β} (h : RegOk r) (os : List (Op κ β ε)) : RegOk (EmitterSpec.runOps r os).1 := by
  induction os generalizing r with
  | nil => exact h
  | cons o os ih => exact ih (h.apply o)

/-- A once entry that is live (or an id that is neither live nor in the future) is called at most once. -/
theorem spec_once (os : List (Op κ β ε)) (r : Reg κ β) (h : RegOk r) (id : Nat)
    (h1 : ∀ x ∈ r.live, x.id = id → x.isOnce = true) (h2 : id ≤ r.count) :
    callCount id (EmitterSpec.runOps r os).2 ≤ 1 := by
  induction os generalizing r with
  | nil => simp [EmitterSpec.runOps, callCount]
  | cons o os ih =>
    have hc := spec_count r o
    have hok := h.apply o
    have keep : (∀ x ∈ (EmitterSpec.apply r o).1.live, x.id = id → x.isOnce = true) →
        callCount id (EmitterSpec.runOps (EmitterSpec.apply r o).1 os).2 ≤ 1 := fun k => ih _ hok k (by omega)
    simp only [EmitterSpec.runOps]
    cases o with
    | on n cb =>
      refine keep fun x hx hid => ?_
      rcases List.mem_append.mp hx with hx | hx
      · exact h1 x hx hid
      · simp at hx; subst hx; simp at hid; omega
    | once n cb =>
      refine keep fun x hx hid => ?_
      rcases List.mem_append.mp hx with hx | hx
      · exact h1 x hx hid
      · simp at hx; subst hx; rfl
    | remove i =>
      have e : callCount id ((EmitterSpec.apply r (.remove i : Op κ β ε)).2 :: (EmitterSpec.runOps (EmitterSpec.apply r (.remove i : Op κ β ε)).1 os).2)
          = callCount id (EmitterSpec.runOps (EmitterSpec.apply r (.remove i : Op κ β ε)).1 os).2 := by
        simp only [EmitterSpec.apply]; split <;> rfl
      rw [e]
      refine keep ?_
      simp only [EmitterSpec.apply]
      split
      · intro x hx; exact h1 x (List.mem_of_mem_filter hx)
      · exact h1
    | removeAll => exact keep (by simp [EmitterSpec.apply])
    | discard n => exact keep h1
    | emit n e =>
      have hle := countP_id_le_one (l := r.live.filter (fun x => decide (x.name = n)))
        (((List.filter_sublist).map Entry.id).nodup h.nodup) e id
      by_cases hx : ∃ x ∈ r.live, x.id = id ∧ x.name = n
      · obtain ⟨x, hx, hid, hn⟩ := hx
        have hdead := spec_dead os (EmitterSpec.apply r (.emit n e : Op κ β ε)).1 id (by
          intro y hy hyid
          have hy' := List.mem_filter.mp hy
          have : y = x := List.inj_on_of_nodup_map h.nodup hy'.1 hx (by rw [hyid, hid])
          subst this
          have := hy'.2
          simp [hn, h1 y hx hid] at this) (by omega)
        simp only [EmitterSpec.apply, callCount] at *
        omega
      · have h0 : ((r.live.filter (fun x => decide (x.name = n))).map (fun x => (x.id, x.cb, e))).countP (fun c => c.1 == id) = 0 := by
          rw [List.countP_eq_zero]
          intro c hc'
          obtain ⟨y, hy, rfl⟩ := List.mem_map.mp hc'
          have hy' := List.mem_filter.mp hy
          simp only [beq_iff_eq]
          intro hyid
          exact hx ⟨y, hy'.1, hyid, by simpa using hy'.2⟩
        have := keep (fun x hx => h1 x (List.mem_of_mem_filter hx))
        simp only [EmitterSpec.apply, callCount] at *
        omega

theorem spec_runOps_append (a b : List (Op κ β ε)) (r : Reg κ β) :
    EmitterSpec.runOps r (a ++ b) =
      ((EmitterSpec.runOps (EmitterSpec.runOps r a).1 b).1,
        (EmitterSpec.runOps r a).2 ++ (EmitterSpec.runOps (EmitterSpec.runOps r a).1 b).2) := by
  induction a generalizing r with
  | nil => simp [EmitterSpec.runOps]
  | cons o a ih => simp only [List.cons_append, EmitterSpec.runOps, ih]

end spec

theorem runOps_append (a b : List (Op κ β ε)) (s : St κ β) :
    SafeEE.runOps s (a ++ b) =
      ((SafeEE.runOps (SafeEE.runOps s a).1 b).1,
        (SafeEE.runOps s a).2 ++ (SafeEE.runOps (SafeEE.runOps s a).1 b).2) := by
  induction a generalizing s with
  | nil => simp [SafeEE.runOps]
  | cons o a ih => simp only [List.cons_append, SafeEE.runOps, ih]

/-! ### Interleaved executions -/

/-- State of emission `k` relative to its snapshot. -/
inductive Prog (k : Nat) (e : ε) (snap : List (Nat × β × ε)) (s : CSt κ β ε) (log : List (CEv β ε)) : Prop
  | going (em : Emission β ε) (h1 : s.run k = some em) (h2 : em.ev = e)
      (h3 : callsOf k log ++ em.rest.map (fun h => (h.id, h.cb, e)) = snap)
      (h4 : CEv.returned k ∉ log) (h5 : CEv.threw k ∉ log)
  | returned (h1 : s.run k = none) (h2 : callsOf k log = snap) (h3 : CEv.returned k ∈ log) (h4 : CEv.threw k ∉ log)
  | threw (h1 : s.run k = none) (h2 : callsOf k log <+: snap) (h3 : CEv.threw k ∈ log) (h4 : CEv.returned k ∉ log)

theorem callsOf_append (k : Nat) (a b : List (CEv β ε)) : callsOf k (a ++ b) = callsOf k a ++ callsOf k b := by
  induction a with
  | nil => rfl
  | cons x a ih => cases x <;> simp [callsOf, ih]; split <;> simp

theorem Prog.step {k : Nat} {e : ε} {snap} {s s' : CSt κ β ε} {log ev} {a : CAct κ β ε} (h : Prog k e snap s log)
    (ha : ∀ n e', a ≠ .start k n e') (hs : cstep s a = some (s', ev)) : Prog k e snap s' (log ++ ev) := by
  -- steps that do not concern emission k
  have other : s'.run k = s.run k → callsOf k ev = [] → CEv.returned k ∉ ev → CEv.threw k ∉ ev →
      Prog k e snap s' (log ++ ev) := by
    intro e1 e2 e3 e4
    cases h with
    | going em h1 h2 h3 h4 h5 =>
      exact .going em (e1 ▸ h1) h2 (by rw [callsOf_append, e2]; simpa using h3) (by simp [h4, e3]) (by simp [h5, e4])
    | returned h1 h2 h3 h4 =>
      exact .returned (e1 ▸ h1) (by rw [callsOf_append, e2]; simpa using h2) (by simp [h3]) (by simp [h4, e4])
    | threw h1 h2 h3 h4 =>
      exact .threw (e1 ▸ h1) (by rw [callsOf_append, e2]; simpa using h2) (by simp [h3]) (by simp [h4, e3])
  cases a with
  | op o =>
    have : s'.run = s.run ∧ ev = [] := by
      cases o <;> simp only [cstep] at hs <;> first | (cases hs; done) | (cases hs; exact ⟨rfl, rfl⟩)
    obtain ⟨h1, rfl⟩ := this
    exact other (by rw [h1]) rfl (by simp) (by simp)
  | start j n e' =>
    have hj : k ≠ j := fun hj => ha n e' (by rw [hj])
    simp only [cstep] at hs
    split at hs
    · cases hs
    · cases hs
      exact other (by simp [hj]) rfl (by simp) (by simp)
  | call j =>
    simp only [cstep] at hs
    split at hs
    · rename_i e' g rest hj
      cases hs
      by_cases hk : k = j
      · subst hk
        cases h with
        | going em h1 h2 h3 h4 h5 =>
          rw [hj] at h1
          cases h1
          simp only at h2 h3
          refine .going _ (upd_same _ _ _) h2 ?_ (by simp [h4]) (by simp [h5])
          rw [callsOf_append, ← h3, ← h2]
          simp [callsOf]
        | returned h1 => rw [hj] at h1; cases h1
        | threw h1 => rw [hj] at h1; cases h1
      · exact other (by simp [hk]) (by simp [callsOf, Ne.symm hk]) (by simp) (by simp)
    · cases hs
  | finish j =>
    simp only [cstep] at hs
    split at hs
    · rename_i e' rest id hj
      split at hs
      · cases hs
        by_cases hk : k = j
        · subst hk
          cases h with
          | going em h1 h2 h3 h4 h5 =>
            rw [hj] at h1
            cases h1
            exact .going _ (upd_same _ _ _) h2 (by simpa using h3) (by simpa using h4) (by simpa using h5)
          | returned h1 => rw [hj] at h1; cases h1
          | threw h1 => rw [hj] at h1; cases h1
        · exact other (by simp [hk]) rfl (by simp) (by simp)
      · cases hs
        by_cases hk : k = j
        · subst hk
          cases h with
          | going em h1 h2 h3 h4 h5 =>
            refine .threw (upd_same _ _ _) ?_ (by simp) (by simp [h4])
            rw [callsOf_append, ← h3]
            simp [callsOf]
          | returned h1 => rw [hj] at h1; cases h1
          | threw h1 => rw [hj] at h1; cases h1
        · exact other (by simp [hk]) rfl (by simp) (by simp [hk])
    · cases hs
  | ret j =>
    simp only [cstep] at hs
    split at hs
    · rename_i e' hj
      cases hs
      by_cases hk : k = j
      · subst hk
        cases h with
        | going em h1 h2 h3 h4 h5 =>
          rw [hj] at h1
          cases h1
          refine .returned (upd_same _ _ _) ?_ (by simp) (by simp [h5])
          rw [callsOf_append, ← h3]
          simp [callsOf]
        | returned h1 => rw [hj] at h1; cases h1
        | threw h1 => rw [hj] at h1; cases h1
      · exact other (by simp [hk]) rfl (by simp [hk]) (by simp)
    · cases hs

theorem crun_cons {s s'' : CSt κ β ε} {a as log} (h : crun s (a :: as) = some (s'', log)) :
    ∃ s' ev log', cstep s a = some (s', ev) ∧ crun s' as = some (s'', log') ∧ log = ev ++ log' := by
  simp only [crun] at h
  split at h
  · cases h
  · rename_i s' ev he
    split at h
    · cases h
    · rename_i s3 log' hr
      cases h
      exact ⟨s', ev, log', he, hr, rfl⟩

theorem Prog.run {k : Nat} {e : ε} {snap} {s s' : CSt κ β ε} {log log'} {as : List (CAct κ β ε)}
    (h : Prog k e snap s log) (ha : ∀ n e', CAct.start k n e' ∉ as) (hs : crun s as = some (s', log')) :
    Prog k e snap s' (log ++ log') := by
  induction as generalizing s log log' with
  | nil => simp only [crun] at hs; cases hs; simpa using h
  | cons a as ih =>
    obtain ⟨s1, ev, log1, h1, h2, rfl⟩ := crun_cons hs
    have := h.step (fun n e' hc => ha n e' (by simp [hc])) h1
    have := ih this (fun n e' hc => ha n e' (by simp [hc])) h2
    rwa [List.append_assoc] at this

end Verif.SafeEE
