import Verif.Model.ObjectPool
import Mathlib.Data.List.Perm.Subperm

namespace Verif.Pool

structure SysInv (n : Nat) (s : Sys) : Prop where
  cap : s.pool.cap = min n 65535
  perm : (s.pool.stack ++ s.out ++ s.pool.deleted ++ s.pool.hidden).Perm (List.range n)
  alive : s.pool.alive = true → s.pool.deleted = [] ∧ s.pool.finalized = [] ∧ s.pool.hidden = (List.range n).drop 65535
  dead : s.pool.alive = false → s.pool.stack = [] ∧ s.pool.hidden = []

theorem range_split (n : Nat) : List.range (min n 65535) ++ (List.range n).drop 65535 = List.range n := by
  have : List.range (min n 65535) = (List.range n).take 65535 := by rw [List.take_range, Nat.min_comm]
  rw [this, List.take_append_drop]

theorem sysInv_init (n : Nat) : SysInv n (Sys.init n) := by
  constructor <;> simp [Sys.init, Pool.init, range_split]

theorem sysInv_step {n : Nat} {s s' : Sys} {op : Op} (h : SysInv n s) (hs : s.step op = some s') :
    SysInv n s' := by
  obtain ⟨hc, hp, ha, hd⟩ := h
  cases op with
  | acquire =>
    simp only [Sys.step] at hs
    split at hs
    · rename_i hal
      cases hst : s.pool.stack with
      | nil =>
        simp only [Pool.acquire, hst, Option.some.injEq] at hs
        subst hs
        rw [hst] at hp
        exact ⟨hc, hp, ha, fun h => by simp [hal] at h⟩
      | cons o r =>
        simp only [Pool.acquire, hst, Option.some.injEq] at hs
        subst hs
        refine ⟨hc, ?_, ha, ?_⟩
        · rw [hst] at hp
          refine List.Perm.trans ?_ hp
          refine List.perm_iff_count.mpr fun a => ?_
          simp only [List.count_append, List.count_cons]
          omega
        · intro h; simp [hal] at h
    · simp at hs
  | release o =>
    simp only [Sys.step] at hs
    split at hs
    · rename_i ho
      simp only [Option.some.injEq] at hs
      subst hs
      have he := List.perm_cons_erase ho
      by_cases hal : s.pool.alive = true
      · have hlen : s.pool.stack.length < s.pool.cap := by
          have h1 := hp.length_eq
          have h2 := he.length_eq
          simp [(ha hal).1, (ha hal).2.2] at h1 h2
          omega
        simp only [Pool.release, hal, if_true, hlen]
        refine ⟨hc, ?_, fun _ => ha hal, ?_⟩
        · refine List.Perm.trans ?_ hp
          refine List.perm_iff_count.mpr fun a => ?_
          have := he.count_eq a
          simp only [List.count_append, List.count_cons] at this ⊢
          omega
        · intro h; simp at h
      · have hal : s.pool.alive = false := by simpa using hal
        simp only [Pool.release, hal]
        refine ⟨hc, ?_, ?_, ?_⟩
        · refine List.Perm.trans ?_ hp
          simp only [Bool.false_eq_true, if_false]
          refine List.perm_iff_count.mpr fun a => ?_
          have := he.count_eq a
          simp only [List.count_append, List.count_cons] at this ⊢
          omega
        · intro h; simp at h
        · intro _; simpa using hd hal
    · simp at hs
  | destroy =>
    simp only [Sys.step] at hs
    split at hs
    · rename_i hal
      simp only [Option.some.injEq] at hs
      subst hs
      refine ⟨hc, ?_, ?_, ?_⟩
      · refine List.Perm.trans ?_ hp
        simp only [Pool.destroy]
        refine List.perm_iff_count.mpr fun a => ?_
        simp only [List.count_append, List.count_reverse, List.count_nil]
        omega
      · intro h; simp [Pool.destroy] at h
      · intro _; simp [Pool.destroy]
    · simp at hs

theorem sysInv_run {n : Nat} {ops : List Op} {s s' : Sys} (h : SysInv n s)
    (hr : s.run ops = some s') : SysInv n s' := by
  induction ops generalizing s with
  | nil => simp only [Sys.run, Option.some.injEq] at hr; subst hr; exact h
  | cons op rest ih =>
    simp only [Sys.run] at hr
    cases hs : s.step op with
    | none => simp [hs] at hr
    | some s1 => simp only [hs] at hr; exact ih (sysInv_step h hs) hr

/-! ### publisher -/

structure PubInv {T : Type} (c : Cfg T) (s : Pub T) : Prop where
  nodup : s.live.Nodup
  lt : ∀ o ∈ s.live, o < s.next
  next : c.poolSize ≤ s.next
  allocs : s.allocs = s.next
  none : s.pool = none ↔ c.poolSize = 0
  pool : ∀ p, s.pool = some p → p.cap = min c.poolSize 65535 ∧ p.alive = true ∧
    (p.stack ++ s.live.filter (· < c.poolSize)).Perm (List.range (min c.poolSize 65535))

theorem pubInv_init {T : Type} (c : Cfg T) : PubInv c (Pub.init c) := by
  refine ⟨by simp [Pub.init], by simp [Pub.init], by simp [Pub.init], by simp [Pub.init], ?_, ?_⟩
  · simp [Pub.init]
  · intro p hp
    simp only [Pub.init] at hp
    split at hp
    · simp at hp
    · simp only [Option.some.injEq] at hp
      subst hp
      simp [Pool.init, Pub.init]

theorem pubInv_fresh {T : Type} {c : Cfg T} {s : Pub T} (v : T) (h : PubInv c s) :
    PubInv c (s.fresh v).1 := by
  refine ⟨?_, ?_, ?_, ?_, ?_, ?_⟩
  · simp only [Pub.fresh, List.nodup_cons]
    exact ⟨fun hm => by have := h.lt _ hm; omega, h.nodup⟩
  · intro o ho
    simp only [Pub.fresh, List.mem_cons] at ho ⊢
    rcases ho with rfl | ho
    · omega
    · have := h.lt _ ho; omega
  · have := h.next; simp only [Pub.fresh]; omega
  · have := h.allocs; simp only [Pub.fresh]; omega
  · exact h.none
  · intro p hp
    have := h.pool p hp
    have hn := h.next
    refine ⟨this.1, this.2.1, ?_⟩
    simp only [Pub.fresh]
    rw [List.filter_cons_of_neg (by simpa using hn)]
    exact this.2.2

theorem pubInv_take {T : Type} {c : Cfg T} {s : Pub T} {p : Pool} {o : Nat} {r : List Nat} (f : Nat → T)
    (h : PubInv c s) (hp : s.pool = some p) (hst : p.stack = o :: r) :
    PubInv c { s with pool := some { p with stack := r }, content := f, live := o :: s.live } := by
  obtain ⟨h1, h2, h3⟩ := h.pool p hp
  rw [hst] at h3
  have hlt : o < c.poolSize := by
    have : o ∈ List.range (min c.poolSize 65535) := h3.mem_iff.mp (by simp)
    simp at this; omega
  have hnd := h3.nodup_iff.mpr List.nodup_range
  have hno : o ∉ s.live := by
    intro hm
    have : o ∈ s.live.filter (· < c.poolSize) := by simp [hm, hlt]
    simp only [List.cons_append, List.nodup_cons, List.mem_append, not_or] at hnd
    exact hnd.1.2 this
  refine ⟨?_, ?_, h.next, h.allocs, ?_, ?_⟩
  · simp [hno, h.nodup]
  · intro o' ho'
    simp only [List.mem_cons] at ho'
    rcases ho' with rfl | ho'
    · have := h.next; simp only; omega
    · exact h.lt _ ho'
  · have := h.none; simp [hp] at this; simp [this]
  · intro p' hp'
    simp only [Option.some.injEq] at hp'
    subst hp'
    refine ⟨h1, h2, ?_⟩
    refine List.Perm.trans ?_ h3
    simp only [List.cons_append]
    rw [List.filter_cons_of_pos (by simpa using hlt)]
    exact List.perm_middle

theorem pubInv_fail {T : Type} {c : Cfg T} {s : Pub T} {p : Pool}
    (h : PubInv c s) (hp : s.pool = some p) (hst : p.stack = []) (k : Nat) :
    PubInv c { s with pool := some { p with stack := [], fails := k } } := by
  obtain ⟨h1, h2, h3⟩ := h.pool p hp
  refine ⟨h.nodup, h.lt, h.next, h.allocs, ?_, ?_⟩
  · have := h.none; simp [hp] at this; simp [this]
  · intro p' hp'
    simp only [Option.some.injEq] at hp'
    subst hp'
    exact ⟨h1, h2, by rw [hst] at h3; exact h3⟩

theorem pubInv_step {T : Type} {c : Cfg T} {s s' : Pub T} {op : POp T} {r : Option Nat}
    (h : PubInv c s) (hs : s.step c op = some (s', r)) : PubInv c s' := by
  cases op with
  | publish e =>
    simp only [Pub.step, Option.some.injEq, Prod.mk.injEq] at hs
    obtain ⟨rfl, rfl⟩ := hs
    unfold Pub.publish
    cases hp : s.pool with
    | none =>
      simp only
      cases c.cloner <;> exact pubInv_fresh _ h
    | some p =>
      cases hst : p.stack with
      | nil => simp only [Pool.acquire, hst]; exact pubInv_fresh _ (pubInv_fail h hp hst (p.fails + 1))
      | cons o r => simp only [Pool.acquire, hst]; exact pubInv_take _ h hp hst
  | process f =>
    simp only [Pub.step, Option.some.injEq, Prod.mk.injEq] at hs
    obtain ⟨rfl, rfl⟩ := hs
    unfold Pub.process
    cases hp : s.pool with
    | none => exact pubInv_fresh _ h
    | some p =>
      cases hst : p.stack with
      | nil => simp only [Pool.acquire, hst]; exact pubInv_fresh _ (pubInv_fail h hp hst (p.fails + 1))
      | cons o r => simp only [Pool.acquire, hst]; exact pubInv_take _ h hp hst
  | drop o =>
    simp only [Pub.step] at hs
    split at hs
    · rename_i ho
      simp only [Option.some.injEq, Prod.mk.injEq] at hs
      obtain ⟨rfl, rfl⟩ := hs
      refine ⟨h.nodup.erase _, ?_, h.next, h.allocs, ?_, ?_⟩
      · intro o' ho'; exact h.lt _ (List.mem_of_mem_erase ho')
      · simp only [Pub.drop]
        split
        · simp [h.none]
        · exact h.none
      · intro p hp
        simp only [Pub.drop] at hp ⊢
        split at hp
        · rename_i hlt
          cases hsp : s.pool with
          | none => simp [hsp] at hp
          | some p0 =>
            simp only [hsp, Option.map_some, Option.some.injEq] at hp
            obtain ⟨h1, h2, h3⟩ := h.pool p0 hsp
            have hm : o ∈ s.live.filter (· < c.poolSize) := by simp [ho, hlt]
            have he := List.perm_cons_erase hm
            have hlen : p0.stack.length < p0.cap := by
              have e1 := h3.length_eq
              have e2 := he.length_eq
              simp at e1 e2
              omega
            simp only [Pool.release, h2, if_true, hlen] at hp
            subst hp
            refine ⟨h1, rfl, ?_⟩
            refine List.Perm.trans ?_ h3
            have hf : (s.live.erase o).filter (· < c.poolSize) =
                (s.live.filter (· < c.poolSize)).erase o := by
              rw [List.erase_filter]
            rw [hf]
            refine List.Perm.trans ?_ (List.Perm.append_left _ he.symm)
            simp only [List.cons_append]
            exact List.perm_middle.symm
        · rename_i hlt
          obtain ⟨h1, h2, h3⟩ := h.pool p hp
          refine ⟨h1, h2, ?_⟩
          have hf : (s.live.erase o).filter (· < c.poolSize) = s.live.filter (· < c.poolSize) := by
            rw [← List.erase_filter]
            exact List.erase_of_not_mem (by simp; intro _; omega)
          rw [hf]; exact h3
    · simp at hs

theorem pubInv_run {T : Type} {c : Cfg T} {ops : List (POp T)} {s s' : Pub T} (h : PubInv c s)
    (hr : s.run c ops = some s') : PubInv c s' := by
  induction ops generalizing s with
  | nil => simp only [Pub.run, Option.some.injEq] at hr; subst hr; exact h
  | cons op rest ih =>
    simp only [Pub.run] at hr
    cases hs : s.step c op with
    | none => simp [hs] at hr
    | some q => obtain ⟨s1, r⟩ := q; simp only [hs] at hr; exact ih (pubInv_step h hs) hr

end Verif.Pool
