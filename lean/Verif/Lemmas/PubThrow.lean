import Verif.Model.PubThrow
import Verif.Lemmas.ObjectPool

namespace Verif.PubThrow
open Verif.Pool

variable {T : Type}

/-- The part of the arguments the invariant of Lemmas/ObjectPool depends on. -/
def Cfg.base (c : Cfg T) : Pool.Cfg T := ⟨c.poolSize, c.dflt, none, none⟩

/-- Free pooled events. -/
def St.free (s : St T) : List Nat := (s.pub.pool.map (·.stack)).getD []

abbrev I (c : Cfg T) (s : St T) : Prop := PubInv c.base s.pub

theorem inv_content {c : Pool.Cfg T} {p : Pub T} (h : PubInv c p) (f : Nat → T) : PubInv c { p with content := f } :=
  ⟨h.nodup, h.lt, h.next, h.allocs, h.none, h.pool⟩

theorem inv_init (c : Cfg T) : I c (St.init c) := inv_content (pubInv_init c.base) _

theorem inv_drop {c : Cfg T} {s : St T} {o : Nat} (h : I c s) (ho : o ∈ s.pub.live) : I c (s.drop c o) :=
  pubInv_step (op := .drop o) h (s' := (s.drop c o).pub) (r := none) (by simp [Pub.step, ho, Pub.drop, St.drop, Cfg.base]; rfl)

/-- The call has not touched anything others see. -/
def Same (s s' : St T) : Prop := s'.pub.live = s.pub.live ∧ s'.free = s.free ∧ ∀ o ∈ s.pub.live, s'.pub.content o = s.pub.content o

/-- The call holds event `o`, unknown to others. -/
structure Got (c : Cfg T) (s s1 : St T) (o : Nat) : Prop where
  inv : I c s1
  live : s1.pub.live = o :: s.pub.live
  other : o ∉ s.pub.live
  content : ∀ o' ∈ s.pub.live, s1.pub.content o' = s.pub.content o'
  free : (s1.drop c o).free = s.free

theorem Got.write {c : Cfg T} {s s1 : St T} {o : Nat} (h : Got c s s1 o) (v : T) : Got c s (s1.write o v) o where
  inv := inv_content h.inv _
  live := h.live
  other := h.other
  content o' ho' := by
    have : o' ≠ o := fun e => h.other (e ▸ ho')
    simp only [St.write]
    rw [upd_other _ _ this]; exact h.content o' ho'
  free := h.free

theorem Got.callInit {c : Cfg T} {s s1 : St T} {o : Nat} (h : Got c s s1 o) : Got c s (s1.callInit c o).1 o :=
  let k := h.write (c.initFun (s1.pub.content o)).1
  ⟨k.inv, k.live, k.other, k.content, k.free⟩

theorem Got.callClone {c : Cfg T} {s s1 : St T} {o : Nat} (h : Got c s s1 o) (e : T) : Got c s (s1.callClone c e o).1 o :=
  let k := h.write (c.clone e (s1.pub.content o)).1
  ⟨k.inv, k.live, k.other, k.content, k.free⟩

theorem Got.drop {c : Cfg T} {s s1 : St T} {o : Nat} (h : Got c s s1 o) : I c (s1.drop c o) ∧ Same s (s1.drop c o) :=
  ⟨inv_drop h.inv (by rw [h.live]; simp), by simp [St.drop, h.live], h.free, fun o' ho' => h.content o' ho'⟩

theorem Got.of_same {c : Cfg T} {s0 s s1 : St T} {o : Nat} (hs : Same s0 s) (h : Got c s s1 o) : Got c s0 s1 o :=
  ⟨h.inv, by rw [h.live, hs.1], by rw [← hs.1]; exact h.other,
    fun o' ho' => by rw [h.content o' (by rw [hs.1]; exact ho'), hs.2.2 o' ho'], by rw [h.free, hs.2.1]⟩

theorem Same.trans {a b d : St T} (h : Same a b) (k : Same b d) : Same a d :=
  ⟨by rw [k.1, h.1], by rw [k.2.1, h.2.1], fun o ho => by rw [k.2.2 o (by rw [h.1]; exact ho), h.2.2 o ho]⟩

theorem got_make {c : Cfg T} {s : St T} (h : I c s) (v : T) : Got c s (s.make v).1 (s.make v).2 where
  inv := pubInv_fresh v h
  live := rfl
  other hm := by have := h.lt _ hm; simp [St.make] at this
  content o ho := by
    have : o ≠ s.pub.next := by have := h.lt _ ho; omega
    simp only [St.make, Pub.fresh]; rw [upd_other _ _ this]
  free := by
    have : ¬ s.pub.next < c.poolSize := by have : c.poolSize ≤ s.pub.next := h.next; omega
    simp [St.drop, St.make, Pub.fresh, this, St.free]

theorem got_take {c : Cfg T} {s : St T} {p : Pool} {o : Nat} {r : List Nat} (h : I c s) (hp : s.pub.pool = some p) (hst : p.stack = o :: r) :
    Got c s { s with pub := { s.pub with pool := some { p with stack := r }, live := o :: s.pub.live } } o := by
  have hi := pubInv_take s.pub.content h hp hst
  obtain ⟨h1, h2, h3⟩ := h.pool p hp
  rw [hst] at h3
  have hlen := h3.length_eq
  have hm : o ∈ List.range (min c.poolSize 65535) := h3.mem_iff.mp (by simp)
  have hlt : o < c.poolSize := by simp at hm; omega
  refine ⟨hi, rfl, ?_, fun _ _ => rfl, ?_⟩
  · have := hi.nodup; simp at this; exact this.1
  · have hc : p.cap = min c.poolSize 65535 := h1
    have hl : r.length < p.cap := by
      rw [hc]; simp only [Cfg.base, List.cons_append, List.length_cons, List.length_append, List.length_range] at hlen
      omega
    simp [St.drop, St.free, hlt, hp, Pool.release, h2, hl, hst]

theorem same_fail {c : Cfg T} {s : St T} {p : Pool} (h : I c s) (hp : s.pub.pool = some p) (hst : p.stack = []) (k : Nat) :
    I c { s with pub := { s.pub with pool := some { p with stack := [], fails := k } } } ∧
    Same s { s with pub := { s.pub with pool := some { p with stack := [], fails := k } } } :=
  ⟨pubInv_fail h hp hst k, rfl, by simp [St.free, hp, hst], fun _ _ => rfl⟩

/-- What a call leaves behind. -/
def Done (c : Cfg T) (s : St T) : St T × Res → Prop
  | (s', .event o) => Got c s s' o
  | (s', .threw _) => I c s' ∧ Same s s'

theorem Done.of_same {c : Cfg T} {s0 s : St T} {r : St T × Res} (hs : Same s0 s) (h : Done c s r) : Done c s0 r := by
  obtain ⟨s', r⟩ := r
  cases r with
  | event o => exact Got.of_same hs h
  | threw x => exact ⟨h.1, hs.trans h.2⟩

theorem done_fresh {c : Cfg T} {s : St T} (h : I c s) (e : T) : Done c s (s.freshEvent c e) := by
  have g := got_make h c.dflt
  unfold St.freshEvent
  dsimp only
  have gi := g.callInit
  split
  · exact gi.drop
  · have gk := gi.callClone e
    split
    · exact gk.drop
    · exact gk

theorem done_publish {c : Cfg T} {s : St T} (h : I c s) (e : T) : Done c s (s.publish c e) := by
  unfold St.publish
  cases hp : s.pub.pool with
  | none =>
    dsimp only
    split
    · exact got_make h e
    · exact done_fresh h e
  | some p =>
    cases hst : p.stack with
    | nil =>
      obtain ⟨hi, hs⟩ := same_fail h hp hst (p.fails + 1)
      have := (done_fresh hi e).of_same hs
      simp only [Pool.acquire, hst]
      convert this using 5
    | cons o r =>
      simp only [Pool.acquire, hst]
      have g := (got_take h hp hst).callClone e
      split
      · exact g
      · exact (done_fresh g.drop.1 e).of_same g.drop.2
      · exact g.drop

theorem done_fill {c : Cfg T} {s s1 : St T} {o : Nat} (g : Got c s s1 o) (f : T → T × Option Exc) : Done c s (s1.fill c f o) := by
  unfold St.fill
  dsimp only
  have gi := g.callInit
  split
  · exact gi.drop
  · have gw := gi.write (f ((s1.callInit c o).1.pub.content o)).1
    split
    · exact gw.drop
    · exact gw

theorem done_process {c : Cfg T} {s : St T} (h : I c s) (f : T → T × Option Exc) : Done c s (s.process c f) := by
  unfold St.process
  cases hp : s.pub.pool with
  | none => exact done_fill (got_make h c.dflt) f
  | some p =>
    cases hst : p.stack with
    | nil =>
      obtain ⟨hi, hs⟩ := same_fail h hp hst (p.fails + 1)
      have := (done_fill (got_make hi c.dflt) f).of_same hs
      simp only [Pool.acquire, hst]
      convert this using 6
    | cons o r =>
      simp only [Pool.acquire, hst]
      exact done_fill (got_take h hp hst) f

theorem inv_of_done {c : Cfg T} {s : St T} {r : St T × Res} (h : Done c s r) : I c r.1 := by
  obtain ⟨s', r⟩ := r
  cases r with
  | event o => exact h.inv
  | threw x => exact h.1

theorem inv_step {c : Cfg T} {s s' : St T} {op : Op T} {r : Option Res} (h : I c s) (hs : s.step c op = some (s', r)) : I c s' := by
  cases op with
  | publish e =>
    simp only [St.step, Option.some.injEq, Prod.mk.injEq] at hs
    rw [← hs.1]; exact inv_of_done (done_publish h e)
  | process f =>
    simp only [St.step, Option.some.injEq, Prod.mk.injEq] at hs
    rw [← hs.1]; exact inv_of_done (done_process h f)
  | drop o =>
    simp only [St.step] at hs
    split at hs
    · rename_i ho
      simp only [Option.some.injEq, Prod.mk.injEq] at hs
      rw [← hs.1]; exact inv_drop h ho
    · cases hs

theorem inv_run {c : Cfg T} {ops : List (Op T)} {s s' : St T} (h : I c s) (hr : s.run c ops = some s') : I c s' := by
  induction ops generalizing s with
  | nil => simp only [St.run, Option.some.injEq] at hr; subst hr; exact h
  | cons op rest ih =>
    simp only [St.run] at hr
    cases hs : s.step c op with
    | none => simp [hs] at hr
    | some q => obtain ⟨s1, r⟩ := q; simp only [hs] at hr; exact ih (inv_step h hs) hr

end Verif.PubThrow
