import Verif.Model.Env
import Mathlib.Data.List.Induction

namespace Verif.Env
open Verif

variable {V : Type}

theorem find_append (m : List (String × V)) (p : String × V) (k : String) :
    find (m ++ [p]) k = match find m k with | some v => some v | none => if p.1 = k then some p.2 else none := by
  induction m with
  | nil => simp [find]
  | cons q m ih =>
    simp only [List.cons_append, find]
    split
    · rfl
    · exact ih

theorem find_insert (m : List (String × V)) (k k' : String) (v : V) :
    find (insert m k v).1 k' = if k' = k then some ((find m k).getD v) else find m k' := by
  simp only [insert]
  cases h : find m k with
  | some w =>
    simp only []
    split
    · next e => subst e; rw [h]; rfl
    · rfl
  | none =>
    simp only [find_append]
    by_cases e : k' = k
    · subst e; rw [h]; simp
    · rw [if_neg e]
      cases find m k' with
      | some w => rfl
      | none => simp; exact fun x => absurd x.symm e

theorem insert_flag (m : List (String × V)) (k : String) (v : V) : (insert m k v).2 = (find m k).isNone := by
  simp only [insert]
  cases find m k <;> rfl

theorem find_assign (m : List (String × V)) (k k' : String) (v : V) :
    find (assign m k v) k' = if k' = k then (find m k).map (fun _ => v) else find m k' := by
  induction m with
  | nil => simp [assign, find]
  | cons p m ih =>
    simp only [assign, List.map_cons] at ih ⊢
    by_cases hp : p.1 = k
    · simp only [if_pos hp, find]
      by_cases hk : k = k'
      · simp [hk]
      · have hk' : ¬ k' = k := fun e => hk e.symm
        simp only [if_neg hk, if_neg hk', ih]
        rw [if_neg (by rw [hp]; exact hk)]
    · obtain ⟨p1, p2⟩ := p
      simp only [if_neg hp, find]
      by_cases hk : p1 = k'
      · subst hk; simp [show ¬ p1 = k from hp]
      · simp only [if_neg hk, ih]

theorem find_propsSet (m : List (String × V)) (k k' : String) (v : V) :
    find (propsSet m k v) k' = if k' = k then some v else find m k' := by
  simp only [propsSet, insert_flag]
  cases h : find m k with
  | none => simp [find_insert, h]
  | some w => simp [find_assign, h]

theorem set_m (e : CEnv) (k : Kind) (l : List (String × k.Val)) : (e.set k l).m k = l := by simp [CEnv.set]
theorem set_m_other (e : CEnv) {k k' : Kind} (h : k' ≠ k) (l : List (String × k.Val)) : (e.set k l).m k' = e.m k' := by
  simp [CEnv.set, h]
theorem mset_m (e : MEnv) (k : Kind) (l : List (String × k.Val)) : (e.set k l).m k = l := by simp [MEnv.set]
theorem mset_m_other (e : MEnv) {k k' : Kind} (h : k' ≠ k) (l : List (String × k.Val)) : (e.set k l).m k' = e.m k' := by
  simp [MEnv.set, h]

theorem find_mSet (e : MEnv) (k : Kind) (key key' : String) (v : k.Val) (root : String) :
    find ((mSet e k key v root).m k) key' = if key' = key then some v else find (e.m k) key' := by
  simp only [mSet, mset_m]
  cases h : find (e.m k) key with
  | some w => simp [find_assign, h]
  | none =>
    rw [find_append]
    by_cases e2 : key' = key
    · subst e2; simp [h]
    · rw [if_neg e2]
      cases find (e.m k) key' with
      | some w => rfl
      | none => simp; exact fun x => absurd x.symm e2

theorem str_append_left_inj {a b c : String} (h : a ++ b = a ++ c) : b = c := by
  have := congrArg String.toList h
  simp only [String.toList_append, List.append_cancel_left_eq] at this
  exact String.toList_inj.mp this

theorem fullKey_inj_key {k k' root : String} (h : getFullKey k root = getFullKey k' root) : k = k' := by
  simp only [getFullKey] at h
  split at h
  · exact h
  · exact str_append_left_inj h

/-- Lookup in the result of `copyFrom` of one property type: existing entries win, then the entries of the source. -/
theorem find_propsCopy (m : List (String × V)) (root : String) (src : List (String × V)) (k' : String) :
    find (propsCopy m root src).1 k' =
      match find m k' with
      | some v => some v
      | none => find (src.map (fun p => (getFullKey p.1 root, p.2))) k' := by
  induction src generalizing m with
  | nil => simp only [propsCopy, List.map_nil, find]; cases find m k' <;> rfl
  | cons p src ih =>
    obtain ⟨k, v⟩ := p
    simp only [propsCopy, List.map_cons, find, ih, find_insert]
    by_cases h : k' = getFullKey k root
    · subst h
      simp only [if_true]
      cases find m (getFullKey k root) <;> simp
    · have h2 : ¬ getFullKey k root = k' := fun x => h x.symm
      simp only [if_neg h, if_neg h2]

theorem find_map_fullKey (root : String) (src : List (String × V)) (k : String) :
    find (src.map (fun p => (getFullKey p.1 root, p.2))) (getFullKey k root) = find src k := by
  induction src with
  | nil => rfl
  | cons p src ih =>
    simp only [List.map_cons, find, ih]
    by_cases h : p.1 = k
    · simp [h]
    · rw [if_neg h, if_neg (fun x => h (fullKey_inj_key x))]

/-- The keys of a map are distinct. -/
def Keys (m : List (String × V)) : Prop := (m.map (·.1)).Nodup

theorem find_none_iff (m : List (String × V)) (k : String) : find m k = none ↔ ∀ p ∈ m, p.1 ≠ k := by
  induction m with
  | nil => simp [find]
  | cons p m ih =>
    simp only [find, List.mem_cons, forall_eq_or_imp]
    split
    · next e => simp [e]
    · next e => simp [e, ih]

theorem find_some_mem {m : List (String × V)} {k : String} {v : V} (h : find m k = some v) : (k, v) ∈ m := by
  induction m with
  | nil => cases h
  | cons p m ih =>
    simp only [find] at h
    split at h
    · next e => cases h; subst e; simp
    · simp [ih h]

theorem keys_insert {m : List (String × V)} (h : Keys m) (k : String) (v : V) : Keys (insert m k v).1 := by
  simp only [insert]
  cases hf : find m k with
  | some w => exact h
  | none =>
    simp only [Keys, List.map_append, List.map_cons, List.map_nil]
    rw [List.nodup_append]
    refine ⟨h, by simp, ?_⟩
    intro a ha b hb
    simp at hb
    subst hb
    obtain ⟨p, hp, rfl⟩ := List.mem_map.mp ha
    exact (find_none_iff m b).mp hf p hp

theorem keys_assign {m : List (String × V)} (h : Keys m) (k : String) (v : V) : Keys (assign m k v) := by
  have : (assign m k v).map (·.1) = m.map (·.1) := by
    simp only [assign, List.map_map]
    apply List.map_congr_left
    intro p _
    simp only [Function.comp]
    split
    · next e => exact e.symm
    · rfl
  simp only [Keys, this]
  exact h

theorem keys_propsSet {m : List (String × V)} (h : Keys m) (k : String) (v : V) : Keys (propsSet m k v) := by
  simp only [propsSet]
  split
  · exact keys_insert h k v
  · exact keys_assign h k v

theorem keys_propsCopy {m : List (String × V)} (h : Keys m) (root : String) (src : List (String × V)) :
    Keys (propsCopy m root src).1 := by
  induction src generalizing m with
  | nil => exact h
  | cons p src ih => exact ih (keys_insert h _ _)

/-- The result of `copyFrom` of one type: true exactly if no key of the source existed. -/
theorem propsCopy_flag (m : List (String × V)) (root : String) (src : List (String × V)) (hs : Keys src) :
    (propsCopy m root src).2 = true ↔ ∀ p ∈ src, find m (getFullKey p.1 root) = none := by
  induction src generalizing m with
  | nil => simp [propsCopy]
  | cons p src ih =>
    obtain ⟨k, v⟩ := p
    simp only [Keys, List.map_cons, List.nodup_cons] at hs
    simp only [propsCopy, Bool.and_eq_true, insert_flag, Option.isNone_iff_eq_none, List.mem_cons, forall_eq_or_imp, ih _ hs.2]
    constructor
    · rintro ⟨h1, h2⟩
      refine ⟨h1, fun p hp => ?_⟩
      have := h2 p hp
      rw [find_insert] at this
      split at this
      · cases this
      · exact this
    · rintro ⟨h1, h2⟩
      refine ⟨h1, fun p hp => ?_⟩
      rw [find_insert]
      rw [if_neg]
      · exact h2 p hp
      · intro e
        have := fullKey_inj_key e
        exact hs.1 (List.mem_map.mpr ⟨p, hp, this⟩)

/-! ### one map at a time -/

theorem find_cSet (e : CEnv) (k : Kind) (key : String) (v : k.Val) (root : String) (k' : Kind) (fk : String) :
    find ((cSet e k key v root).m k') fk =
      if h : k' = k then (if fk = getFullKey key root then some (h ▸ v) else find (e.m k') fk) else find (e.m k') fk := by
  by_cases h : k' = k
  · subst h; simp [cSet, set_m, find_propsSet]
  · simp [cSet, set_m_other _ h, h]

theorem find_copyOne (o : CEnv) (root : String) (r : CEnv × Bool) (k k' : Kind) (fk : String) :
    find ((cCopyOne o root r k).1.m k') fk =
      if r.2 = true ∧ k' = k then
        (match find (r.1.m k') fk with
          | some v => some v
          | none => find ((o.m k').map (fun p => (getFullKey p.1 root, p.2))) fk)
      else find (r.1.m k') fk := by
  unfold cCopyOne
  by_cases hr : r.2 = true
  · simp only [hr, if_true, true_and]
    by_cases h : k' = k
    · subst h; simp only [set_m, find_propsCopy, if_true]; cases find (r.1.m k') fk <;> rfl
    · simp [set_m_other _ h, h]
  · simp [hr]

theorem copyOne_flag (o : CEnv) (root : String) (r : CEnv × Bool) (k : Kind) (ho : Keys (o.m k)) :
    (cCopyOne o root r k).2 = true ↔ r.2 = true ∧ ∀ p ∈ o.m k, find (r.1.m k) (getFullKey p.1 root) = none := by
  unfold cCopyOne
  by_cases hr : r.2 = true
  · simp only [hr, if_true, true_and]
    exact propsCopy_flag _ _ _ ho
  · simp [hr]

/-- No property of type `k` of the source exists already in the target. -/
def Fresh (e o : CEnv) (root : String) (k : Kind) : Prop := ∀ p ∈ o.m k, find (e.m k) (getFullKey p.1 root) = none

/-- The types in the order in which `copyFrom` treats them. -/
def before : Kind → List Kind
  | .string => []
  | .bool => [.string]
  | .int => [.string, .bool]
  | .float => [.string, .bool, .int]

def allKinds : List Kind := [.string, .bool, .int, .float]

theorem copyOne_other (o : CEnv) (root : String) (r : CEnv × Bool) {k k' : Kind} (h : k' ≠ k) :
    (cCopyOne o root r k).1.m k' = r.1.m k' := by
  unfold cCopyOne
  split
  · exact set_m_other _ h _
  · rfl

/-- The chain of `copyFrom`, for any list of different types. -/
theorem copy_chain (e o : CEnv) (root : String) (ho : ∀ k, Keys (o.m k)) (ks : List Kind) (hn : ks.Nodup) :
    (∀ k, k ∉ ks → (ks.foldl (cCopyOne o root) (e, true)).1.m k = e.m k) ∧
    ((ks.foldl (cCopyOne o root) (e, true)).2 = true ↔ ∀ k ∈ ks, Fresh e o root k) := by
  induction ks using List.reverseRecOn with
  | nil => simp
  | append_singleton ks k ih =>
    rw [List.nodup_append] at hn
    obtain ⟨h1, h2⟩ := ih hn.1
    have hk : k ∉ ks := fun hm => hn.2.2 k hm k (by simp) rfl
    rw [List.foldl_append]
    simp only [List.foldl_cons, List.foldl_nil]
    constructor
    · intro k' hk'
      simp at hk'
      rw [copyOne_other _ _ _ hk'.2]
      exact h1 k' hk'.1
    · rw [copyOne_flag _ _ _ _ (ho k), h2, h1 k hk]
      constructor
      · rintro ⟨a, b⟩ k' hk'
        rcases List.mem_append.mp hk' with h | h
        · exact a k' h
        · simp at h; subst h; exact b
      · intro a
        exact ⟨fun k' h => a k' (by simp [h]), a k (by simp)⟩

theorem cCopy_eq (e o : CEnv) (root : String) : cCopy e o root = allKinds.foldl (cCopyOne o root) (e, true) := rfl

/-- Every property of type `k` after `copyFrom`: the old value if there was one; otherwise the value of the source, provided no earlier
type had a duplicate. -/
theorem chain_find (e o : CEnv) (root : String) (ho : ∀ k, Keys (o.m k)) (pre post : List Kind) (k : Kind)
    (hn : (pre ++ k :: post).Nodup) (fk : String) :
    (find (e.m k) fk ≠ none → find (((pre ++ k :: post).foldl (cCopyOne o root) (e, true)).1.m k) fk = find (e.m k) fk) ∧
    (find (e.m k) fk = none → (∀ k' ∈ pre, Fresh e o root k') →
      find (((pre ++ k :: post).foldl (cCopyOne o root) (e, true)).1.m k) fk =
        find ((o.m k).map (fun p => (getFullKey p.1 root, p.2))) fk) ∧
    (find (e.m k) fk = none → (¬ ∀ k' ∈ pre, Fresh e o root k') →
      find (((pre ++ k :: post).foldl (cCopyOne o root) (e, true)).1.m k) fk = none) := by
  have hpost : ∀ (r : CEnv × Bool) (l : List Kind), k ∉ l → (l.foldl (cCopyOne o root) r).1.m k = r.1.m k := by
    intro r l
    induction l generalizing r with
    | nil => intro _; rfl
    | cons a l ih =>
      intro hl
      simp only [List.mem_cons, not_or] at hl
      rw [List.foldl_cons, ih _ hl.2, copyOne_other _ _ _ hl.1]
  have hkpost : k ∉ post := by
    rw [List.nodup_append] at hn
    exact (List.nodup_cons.mp hn.2.1).1
  have hkpre : k ∉ pre := by
    rw [List.nodup_append] at hn
    exact fun hm => hn.2.2 k hm k (by simp) rfl
  have hpn : pre.Nodup := (List.nodup_append.mp hn).1
  obtain ⟨h1, h2⟩ := copy_chain e o root ho pre hpn
  rw [List.foldl_append, List.foldl_cons, hpost _ _ hkpost, find_copyOne, h1 k hkpre]
  by_cases hf : ∀ k' ∈ pre, Fresh e o root k'
  · rw [if_pos ⟨h2.mpr hf, rfl⟩]
    cases find (e.m k) fk with
    | some v => simp
    | none => exact ⟨fun x => absurd rfl x, fun _ _ => rfl, fun _ x => absurd hf x⟩
  · rw [if_neg (fun x => hf (h2.mp x.1))]
    cases find (e.m k) fk with
    | some v => simp
    | none => exact ⟨fun x => absurd rfl x, fun _ x => absurd x hf, fun _ _ => rfl⟩

theorem kinds_split (k : Kind) : ∃ post, allKinds = before k ++ k :: post := by
  cases k
  · exact ⟨[.bool, .int, .float], rfl⟩
  · exact ⟨[.int, .float], rfl⟩
  · exact ⟨[.float], rfl⟩
  · exact ⟨[], rfl⟩

theorem allKinds_nodup : allKinds.Nodup := by decide

theorem mem_allKinds (k : Kind) : k ∈ allKinds := by cases k <;> decide

/-- The maps are maps: each key once. -/
def WF (e : CEnv) : Prop := ∀ k, Keys (e.m k)

theorem wf_empty : WF .empty := by intro k; simp [CEnv.empty, Keys]

theorem wf_cSet {e : CEnv} (h : WF e) (k : Kind) (key : String) (v : k.Val) (root : String) : WF (cSet e k key v root) := by
  intro k'
  by_cases hk : k' = k
  · subst hk
    simp only [cSet, set_m]
    exact keys_propsSet (h _) _ _
  · simp only [cSet, set_m_other _ hk]
    exact h k'

theorem wf_copyOne {r : CEnv × Bool} (h : WF r.1) (o : CEnv) (root : String) (k : Kind) : WF (cCopyOne o root r k).1 := by
  intro k'
  unfold cCopyOne
  split
  · by_cases hk : k' = k
    · subst hk
      simp only [set_m]
      exact keys_propsCopy (h _) _ _
    · simp only [set_m_other _ hk]
      exact h k'
  · exact h k'

theorem wf_cLoad {e : CEnv} (h : WF e) (f : Option CEnv) (root : String) : WF (cLoad e f root).1 := by
  cases f with
  | none => exact h
  | some o => exact wf_copyOne (wf_copyOne (wf_copyOne (wf_copyOne (r := (e, true)) h o root _) o root _) o root _) o root _

end Verif.Env
