import Verif.Basic

/-! Nested loops over lists: every loop that has come to its end has treated its items once, in order; every other one a part of them.  Used for C91. -/

namespace Verif.Loops

/-- A loop with tag `t` begins, treats an item, ends. -/
inductive LEv (T : Type) where
  | opn (id : Nat) (t : T) (items : List Nat)
  | item (id : Nat) (t : T) (x : Nat)
  | cls (id : Nat)

def LEv.id {T : Type} : LEv T → Nat
  | .opn i .. => i
  | .item i .. => i
  | .cls i => i

structure LS (T : Type) where
  evs : List (LEv T)
  loops : List (Nat × T × List Nat)
  nid : Nat
  dropped : Bool

inductive LStep {T : Type} : LS T → LS T → Prop where
  | opn (s : LS T) (t : T) (items : List Nat) : LStep s ⟨s.evs ++ [.opn s.nid t items], (s.nid, t, items) :: s.loops, s.nid + 1, s.dropped⟩
  | item (s : LS T) (id : Nat) (t : T) (x : Nat) (r : List Nat) (ls : List (Nat × T × List Nat)) (h : s.loops = (id, t, x :: r) :: ls) :
      LStep s ⟨s.evs ++ [.item id t x], (id, t, r) :: ls, s.nid, s.dropped⟩
  | cls (s : LS T) (id : Nat) (t : T) (ls : List (Nat × T × List Nat)) (h : s.loops = (id, t, []) :: ls) : LStep s ⟨s.evs ++ [.cls id], ls, s.nid, s.dropped⟩
  | drop (s : LS T) (pre ls : List (Nat × T × List Nat)) (h : s.loops = pre ++ ls) : LStep s ⟨s.evs, ls, s.nid, true⟩

inductive LReach {T : Type} : LS T → Prop where
  | init : LReach ⟨[], [], 0, false⟩
  | step {s s' : LS T} : LReach s → LStep s s' → LReach s'

/-- Items treated by loop `id`. -/
def itemsOf {T : Type} (id : Nat) (evs : List (LEv T)) : List (Nat × T) := evs.filterMap fun
  | .item i t x => if i = id then some (x, t) else none
  | _ => none

theorem itemsOf_append {T : Type} (id : Nat) (a b : List (LEv T)) : itemsOf id (a ++ b) = itemsOf id a ++ itemsOf id b := List.filterMap_append ..

theorem itemsOf_fresh {T : Type} {id : Nat} {evs : List (LEv T)} (h : ∀ e ∈ evs, e.id ≠ id) : itemsOf id evs = [] := by
  refine List.filterMap_eq_nil_iff.mpr fun e he => ?_
  cases e with
  | item i t x => exact if_neg (h _ he)
  | _ => rfl

structure LInv {T : Type} (s : LS T) : Prop where
  fresh : ∀ e ∈ s.evs, e.id < s.nid
  lfresh : ∀ l ∈ s.loops, l.1 < s.nid
  nodup : (s.loops.map (·.1)).Nodup
  opn : ∀ id t items, .opn id t items ∈ s.evs → ∃ r : List Nat, itemsOf id s.evs ++ r.map (·, t) = items.map (·, t) ∧ (.cls id ∈ s.evs → r = [] ∧ id ∉ s.loops.map (·.1)) ∧
    ∀ t' r', (id, t', r') ∈ s.loops → t' = t ∧ r' = r
  has : ∀ l ∈ s.loops, ∃ items, .opn l.1 l.2.1 items ∈ s.evs
  open' : ∀ l ∈ s.loops, .cls l.1 ∉ s.evs
  done : s.dropped = false → ∀ id t items, .opn id t items ∈ s.evs → .cls id ∈ s.evs ∨ id ∈ s.loops.map (·.1)

theorem LReach.inv {T : Type} {s : LS T} (h : LReach s) : LInv s := by
  induction h with
  | init => exact ⟨by simp, by simp, by simp, by simp, by simp, by simp, by simp⟩
  | @step s s' h hs ih =>
    cases hs with
    | opn t items =>
      have hne : ∀ e ∈ s.evs, e.id ≠ s.nid := fun e he => Nat.ne_of_lt (ih.fresh e he)
      refine ⟨?_, ?_, ?_, ?_, ?_, ?_, ?_⟩
      · intro e he
        rcases List.mem_append.mp he with he | he
        · exact Nat.lt_succ_of_lt (ih.fresh e he)
        · rw [List.mem_singleton] at he; subst he; exact Nat.lt_succ_self _
      · intro l hl
        rcases List.mem_cons.mp hl with rfl | hl
        · exact Nat.lt_succ_self _
        · exact Nat.lt_succ_of_lt (ih.lfresh l hl)
      · rw [List.map_cons, List.nodup_cons]
        refine ⟨fun hm => ?_, ih.nodup⟩
        obtain ⟨l, hl, e⟩ := List.mem_map.mp hm
        have := ih.lfresh l hl
        omega
      · intro id t' items' hm
        rcases List.mem_append.mp hm with hm | hm
        · obtain ⟨r, h1, h2, h3⟩ := ih.opn id t' items' hm
          have hid : id < s.nid := ih.fresh _ hm
          refine ⟨r, ?_, ?_, ?_⟩
          · rw [itemsOf_append]; simpa [itemsOf] using h1
          · intro hc
            rcases List.mem_append.mp hc with hc | hc
            · refine ⟨(h2 hc).1, fun hx => ?_⟩
              rw [List.map_cons] at hx
              rcases List.mem_cons.mp hx with hx | hx
              · have hx : id = s.nid := hx
                omega
              · exact (h2 hc).2 hx
            · rw [List.mem_singleton] at hc; cases hc
          · intro t2 r2 hx
            rcases List.mem_cons.mp hx with hx | hx
            · cases hx; omega
            · exact h3 t2 r2 hx
        · rw [List.mem_singleton] at hm
          cases hm
          refine ⟨items, ?_, ?_, ?_⟩
          · rw [itemsOf_append, itemsOf_fresh hne]; rfl
          · intro hc
            rcases List.mem_append.mp hc with hc | hc
            · exact absurd rfl (hne _ hc)
            · rw [List.mem_singleton] at hc; cases hc
          · intro t2 r2 hx
            rcases List.mem_cons.mp hx with hx | hx
            · cases hx; exact ⟨rfl, rfl⟩
            · exact absurd (ih.lfresh _ hx) (Nat.lt_irrefl _)
      · intro l hl
        rcases List.mem_cons.mp hl with rfl | hl
        · exact ⟨items, by simp⟩
        · obtain ⟨i, hi⟩ := ih.has l hl
          exact ⟨i, List.mem_append_left _ hi⟩
      · intro l hl hc
        rcases List.mem_append.mp hc with hc | hc
        · rcases List.mem_cons.mp hl with rfl | hl
          · exact hne _ hc rfl
          · exact ih.open' l hl hc
        · rw [List.mem_singleton] at hc; cases hc
      · intro hd id t' items' hm
        rcases List.mem_append.mp hm with hm | hm
        · rcases ih.done hd id t' items' hm with h | h
          · exact .inl (List.mem_append_left _ h)
          · exact .inr (List.mem_cons_of_mem _ h)
        · rw [List.mem_singleton] at hm; cases hm; exact .inr (List.mem_cons_self ..)
    | item id t x r ls hl =>
      have hin : (id, t, x :: r) ∈ s.loops := by rw [hl]; exact List.mem_cons_self ..
      have hids : s.loops.map (·.1) = id :: ls.map (·.1) := by rw [hl]; rfl
      have hnd := ih.nodup
      rw [hids, List.nodup_cons] at hnd
      have hopn : ∀ {i : Nat} {t'' : T} {j : List Nat}, .opn i t'' j ∈ s.evs ++ [LEv.item id t x] → .opn i t'' j ∈ s.evs := fun h => by
        rcases List.mem_append.mp h with h | h
        · exact h
        · rw [List.mem_singleton] at h; cases h
      have hcls : ∀ {i : Nat}, .cls i ∈ s.evs ++ [LEv.item id t x] → .cls i ∈ s.evs := fun h => by
        rcases List.mem_append.mp h with h | h
        · exact h
        · rw [List.mem_singleton] at h; cases h
      refine ⟨?_, ?_, ?_, ?_, ?_, ?_, ?_⟩
      · intro e he
        rcases List.mem_append.mp he with he | he
        · exact ih.fresh e he
        · rw [List.mem_singleton] at he; subst he; exact ih.lfresh _ hin
      · intro l hm
        rcases List.mem_cons.mp hm with rfl | hm
        · have hlt := ih.lfresh _ hin
          exact hlt
        · exact ih.lfresh l (by rw [hl]; exact List.mem_cons_of_mem _ hm)
      · exact List.nodup_cons.mpr hnd
      · intro i t' items' hm
        obtain ⟨q, h1, h2, h3⟩ := ih.opn i t' items' (hopn hm)
        by_cases e : i = id
        · subst e
          obtain ⟨e1, e2⟩ := h3 _ _ hin
          subst e1; subst e2
          refine ⟨r, ?_, ?_, ?_⟩
          · rw [itemsOf_append, ← h1]; simp [itemsOf]
          · intro hc
            exact absurd (hcls hc) (ih.open' _ hin)
          · intro t2 r2 hx
            rcases List.mem_cons.mp hx with hx | hx
            · cases hx; exact ⟨rfl, rfl⟩
            · exact absurd (List.mem_map_of_mem (f := (·.1)) hx) hnd.1
        · refine ⟨q, ?_, ?_, ?_⟩
          · rw [itemsOf_append]
            have : itemsOf i [LEv.item id t x] = [] := by simp [itemsOf, Ne.symm e]
            rw [this, List.append_nil]; exact h1
          · intro hc
            refine ⟨(h2 (hcls hc)).1, ?_⟩
            have := (h2 (hcls hc)).2
            rw [hids] at this
            exact this
          · intro t2 r2 hx
            rcases List.mem_cons.mp hx with hx | hx
            · cases hx; exact absurd rfl e
            · exact h3 t2 r2 (by rw [hl]; exact List.mem_cons_of_mem _ hx)
      · intro l hm
        rcases List.mem_cons.mp hm with rfl | hm
        · obtain ⟨i, hi⟩ := ih.has _ hin
          exact ⟨i, List.mem_append_left _ hi⟩
        · obtain ⟨i, hi⟩ := ih.has l (by rw [hl]; exact List.mem_cons_of_mem _ hm)
          exact ⟨i, List.mem_append_left _ hi⟩
      · intro l hm hc
        rcases List.mem_cons.mp hm with rfl | hm
        · exact ih.open' _ hin (hcls hc)
        · exact ih.open' l (by rw [hl]; exact List.mem_cons_of_mem _ hm) (hcls hc)
      · intro hd i t' items' hm
        rcases ih.done hd i t' items' (hopn hm) with h | h
        · exact .inl (List.mem_append_left _ h)
        · rw [hids] at h; exact .inr h
    | cls id t ls hl =>
      have hin : (id, t, []) ∈ s.loops := by rw [hl]; exact List.mem_cons_self ..
      have hids : s.loops.map (·.1) = id :: ls.map (·.1) := by rw [hl]; rfl
      have hnd := ih.nodup
      rw [hids, List.nodup_cons] at hnd
      have hopn : ∀ {i : Nat} {t'' : T} {j : List Nat}, .opn i t'' j ∈ s.evs ++ [LEv.cls id] → .opn i t'' j ∈ s.evs := fun h => by
        rcases List.mem_append.mp h with h | h
        · exact h
        · rw [List.mem_singleton] at h; cases h
      refine ⟨?_, ?_, hnd.2, ?_, ?_, ?_, ?_⟩
      · intro e he
        rcases List.mem_append.mp he with he | he
        · exact ih.fresh e he
        · rw [List.mem_singleton] at he; subst he; exact ih.lfresh _ hin
      · exact fun l hm => ih.lfresh l (by rw [hl]; exact List.mem_cons_of_mem _ hm)
      · intro i t' items' hm
        obtain ⟨q, h1, h2, h3⟩ := ih.opn i t' items' (hopn hm)
        refine ⟨q, ?_, ?_, ?_⟩
        · rw [itemsOf_append]; simpa [itemsOf] using h1
        · intro hc
          rcases List.mem_append.mp hc with hc | hc
          · have := h2 hc
            rw [hids] at this
            exact ⟨this.1, fun hx => this.2 (List.mem_cons_of_mem _ hx)⟩
          · rw [List.mem_singleton] at hc; cases hc
            exact ⟨(h3 _ _ hin).2.symm, hnd.1⟩
        · exact fun t2 r2 hx => h3 t2 r2 (by rw [hl]; exact List.mem_cons_of_mem _ hx)
      · intro l hm
        obtain ⟨i, hi⟩ := ih.has l (by rw [hl]; exact List.mem_cons_of_mem _ hm)
        exact ⟨i, List.mem_append_left _ hi⟩
      · intro l hm hc
        rcases List.mem_append.mp hc with hc | hc
        · exact ih.open' l (by rw [hl]; exact List.mem_cons_of_mem _ hm) hc
        · rw [List.mem_singleton] at hc
          have hc : l.1 = id := by cases hc; rfl
          exact hnd.1 (hc ▸ List.mem_map_of_mem hm)
      · intro hd i t' items' hm
        rcases ih.done hd i t' items' (hopn hm) with h | h
        · exact .inl (List.mem_append_left _ h)
        · rw [hids] at h
          rcases List.mem_cons.mp h with rfl | h
          · exact .inl (by simp)
          · exact .inr h
    | drop pre ls hl =>
      have hsub : ∀ l ∈ ls, l ∈ s.loops := fun l h => by rw [hl]; exact List.mem_append_right _ h
      have hnd := ih.nodup
      rw [hl, List.map_append, List.nodup_append] at hnd
      refine ⟨ih.fresh, fun l h => ih.lfresh l (hsub l h), hnd.2.1, ?_, fun l h => ih.has l (hsub l h), fun l h => ih.open' l (hsub l h), fun h => by cases h⟩
      intro i t' items' hm
      obtain ⟨q, h1, h2, h3⟩ := ih.opn i t' items' hm
      refine ⟨q, h1, fun hc => ⟨(h2 hc).1, fun hx => (h2 hc).2 ?_⟩, fun t2 r2 hx => h3 t2 r2 (hsub _ hx)⟩
      rw [hl, List.map_append]; exact List.mem_append_right _ hx

end Verif.Loops
