import Verif.Model.Pipeline
import Mathlib.Data.List.Count
import Mathlib.Data.List.Nodup
import Mathlib.Data.List.Perm.Subperm

namespace Verif.Pipe
open Verif.Pool

variable {T : Type}

/-- Changing one entry of a family changes the collected list by one entry. -/
theorem count_filterMap_upd {A : Type} (g : A → Option Nat) (f : Nat → A) (t : Nat) (v : A) (o : Nat) :
    ∀ l : List Nat, l.Nodup → t ∈ l →
      List.count o (l.filterMap fun x => g (upd f t v x)) + (if g (f t) = some o then 1 else 0) =
        List.count o (l.filterMap fun x => g (f x)) + (if g v = some o then 1 else 0)
  | [], _, h => absurd h List.not_mem_nil
  | x :: l, hd, h => by
    obtain ⟨hx, hd⟩ := List.nodup_cons.mp hd
    have hc : ∀ (q : Option Nat) (l : List Nat), List.count o (q.toList ++ l) = (if q = some o then 1 else 0) + List.count o l := by
      intro q l
      cases q with
      | none => simp
      | some a =>
        simp only [Option.toList_some, List.cons_append, List.nil_append, List.count_cons, Option.some.injEq]
        by_cases e : a = o <;> simp [e, Nat.add_comm]
    have he : ∀ (w : Nat → A), (x :: l).filterMap (fun x => g (w x)) = (g (w x)).toList ++ l.filterMap (fun x => g (w x)) := by
      intro w; rw [List.filterMap_cons]; cases g (w x) <;> rfl
    rw [he, he f, hc, hc]
    by_cases e : t = x
    · subst e
      have : l.filterMap (fun x => g (upd f t v x)) = l.filterMap (fun x => g (f x)) := by
        apply List.filterMap_congr
        intro y hy
        rw [upd_other f v (by rintro rfl; exact hx hy)]
      rw [this, upd_same]; omega
    · have h' : t ∈ l := by
        rcases List.mem_cons.mp h with h | h
        · exact absurd h e
        · exact h
      have ih := count_filterMap_upd g f t v o l hd h'
      rw [upd_other f v (fun h => e h.symm)]; omega

/-- The objects publisher threads hold. -/
def pubHeld (n : Nat) (pc : Nat → Pc T) : List Nat := (List.range n).filterMap fun t => (pc t).obj

/-- All `shared_ptr`s: one entry per holder. -/
def holders (c : Cfg T) (s : St T) : List Nat :=
  pubHeld c.threads s.pc ++ s.queue.map (·.1) ++ s.hand.map (·.1) ++ s.kept.map (·.1)

theorem pubHeld_upd {n : Nat} (pc : Nat → Pc T) {t : Nat} (ht : t < n) (v : Pc T) (o : Nat) :
    List.count o (pubHeld n (upd pc t v)) + (if (pc t).obj = some o then 1 else 0) =
      List.count o (pubHeld n pc) + (if v.obj = some o then 1 else 0) :=
  count_filterMap_upd Pc.obj pc t v o _ List.nodup_range (List.mem_range.mpr ht)

theorem pubHeld_length (n : Nat) (pc : Nat → Pc T) : (pubHeld n pc).length ≤ n := by
  have := List.length_filterMap_le (fun t => (pc t).obj) (List.range n)
  simpa [pubHeld] using this

/-- With one thread idle there are fewer. -/
theorem pubHeld_length_lt {n : Nat} {pc : Nat → Pc T} {t : Nat} (ht : t < n) (h : pc t = .idle) : (pubHeld n pc).length < n := by
  unfold pubHeld
  have : ∀ l : List Nat, t ∈ l → (l.filterMap fun t => (pc t).obj).length < l.length := by
    intro l
    induction l with
    | nil => intro h; cases h
    | cons x l ih =>
      intro hm
      rw [List.filterMap_cons]
      by_cases e : x = t
      · subst e
        have := List.length_filterMap_le (fun t => (pc t).obj) l
        have e : (pc x).obj = none := by rw [h]; rfl
        rw [e, List.length_cons]; exact Nat.lt_succ_of_le this
      · have := ih (by rcases List.mem_cons.mp hm with h | h; · exact absurd h.symm e
                       · exact h)
        cases (pc x).obj <;> simp only [List.length_cons] <;> omega
  simpa using this (List.range n) (List.mem_range.mpr ht)

/-- The value of publication `k`. -/
def valOf (s : St T) (k : Nat) : Option T := (s.pubs[k]?).map (·.2)

/-- The pool holds exactly the pooled objects (the first 65535) without a `shared_ptr`, each once. -/
structure PoolOk (n : Nat) (pool : Option Pool) (rc : Nat → Nat) : Prop where
  none : pool = none ↔ n = 0
  some : ∀ p, pool = some p → p.cap = min n 65535 ∧ p.alive = true ∧ p.deleted = [] ∧ p.stack.Nodup ∧ ∀ o, o ∈ p.stack ↔ o < min n 65535 ∧ rc o = 0
  hid : ∀ o, 65535 ≤ o → o < n → rc o = 0

theorem PoolOk.inc {n : Nat} {pool : Option Pool} {rc : Nat → Nat} (h : PoolOk n pool rc) {o : Nat} (ho : 0 < rc o) (m : Nat) :
    PoolOk n pool (upd rc o (rc o + m)) := by
  refine ⟨h.none, fun p hp => ?_, fun x h1 h2 => ?_⟩
  · obtain ⟨h1, h2, h3, h4, h5⟩ := h.some p hp
    refine ⟨h1, h2, h3, h4, fun x => ?_⟩
    rw [h5 x]
    by_cases e : x = o
    · subst e; rw [upd_same]; omega
    · rw [upd_other rc _ e]
  · have hx := h.hid x h1 h2
    rw [upd_other rc _ (fun e => by subst e; omega)]
    exact hx

/-- A destroyed `shared_ptr`: the last one puts the object back, which is never refused. -/
theorem PoolOk.unref {n : Nat} {pool : Option Pool} {rc : Nat → Nat} (h : PoolOk n pool rc) {o : Nat} (ho : 0 < rc o) :
    PoolOk n (if rc o = 1 ∧ o < n then pool.map (·.release o) else pool) (upd rc o (rc o - 1)) := by
  have hid' : ∀ x, 65535 ≤ x → x < n → upd rc o (rc o - 1) x = 0 := by
    intro x h1 h2
    have hx := h.hid x h1 h2
    rw [upd_other rc _ (fun e => by subst e; omega)]
    exact hx
  have hlow : o < n → o < min n 65535 := by
    intro hc
    by_cases h1 : 65535 ≤ o
    · have := h.hid o h1 hc; omega
    · omega
  split
  · rename_i hc
    obtain ⟨hc1, hc2⟩ := hc
    refine ⟨?_, fun p hp => ?_, hid'⟩
    · rw [Option.map_eq_none_iff]; exact h.none
    · obtain ⟨q, hq, rfl⟩ := Option.map_eq_some_iff.mp hp
      obtain ⟨h1, h2, h3, h4, h5⟩ := h.some q hq
      have hn : o ∉ q.stack := fun hm => by have := ((h5 o).mp hm).2; omega
      have hl : q.stack.length < q.cap := by
        have hs : (o :: q.stack) ⊆ List.range (min n 65535) := by
          intro x hx
          rcases List.mem_cons.mp hx with rfl | hx
          · exact List.mem_range.mpr (hlow hc2)
          · exact List.mem_range.mpr ((h5 x).mp hx).1
        have := (List.subperm_of_subset (List.nodup_cons.mpr ⟨hn, h4⟩) hs).length_le
        simp at this; omega
      have e : q.release o = { q with stack := o :: q.stack } := by simp [Pool.release, h2, hl]
      rw [e]
      refine ⟨h1, h2, h3, List.nodup_cons.mpr ⟨hn, h4⟩, fun x => ?_⟩
      simp only [List.mem_cons, h5 x]
      by_cases ex : x = o
      · subst ex; rw [upd_same]; have := hlow hc2; simp [hc1]; omega
      · rw [upd_other rc _ ex]; simp [ex]
  · rename_i hc
    refine ⟨h.none, fun p hp => ?_, hid'⟩
    obtain ⟨h1, h2, h3, h4, h5⟩ := h.some p hp
    refine ⟨h1, h2, h3, h4, fun x => ?_⟩
    rw [h5 x]
    by_cases ex : x = o
    · subst ex; rw [upd_same]
      constructor
      · rintro ⟨_, h⟩; omega
      · rintro ⟨h1, h⟩; exact absurd ⟨by omega, by omega⟩ hc
    · rw [upd_other rc _ ex]

structure Inv (c : Cfg T) (s : St T) : Prop where
  cnt : ∀ o, s.rc o = List.count o (holders c s)
  pool : PoolOk c.pub.poolSize s.pool s.rc
  next : c.pub.poolSize ≤ s.next
  high : ∀ o, s.next ≤ o → s.rc o = 0
  got : ∀ t o call, t < c.threads → s.pc t = .got o call → s.rc o = 1
  vmade : ∀ t o k, t < c.threads → s.pc t = .made o k → valOf s k = some (s.content o)
  vqueue : ∀ x ∈ s.queue, valOf s x.2 = some (s.content x.1)
  vhand : ∀ x ∈ s.hand, valOf s x.2 = some (s.content x.1)
  vkept : ∀ x ∈ s.kept, valOf s x.2 = some (s.content x.1)
  vreads : ∀ x ∈ s.reads, valOf s x.1 = some x.2
  pubs : ∀ x ∈ s.pubs, ∃ d, x.2 = x.1.value c d

theorem inv_init (c : Cfg T) : Inv c (St.init c) := by
  have hp : pubHeld c.threads (fun _ => (Pc.idle : Pc T)) = [] := by
    simp [pubHeld, Pc.obj]
  refine ⟨?_, ⟨?_, ?_, fun _ _ _ => rfl⟩, Nat.le_refl _, fun _ _ => rfl, nofun, nofun, nofun, nofun, nofun, nofun, nofun⟩
  · intro o; simp [St.init, holders, hp]
  · simp [St.init]
  · intro p h
    simp only [St.init] at h
    split at h
    · cases h
    · cases h
      refine ⟨rfl, rfl, rfl, List.nodup_range, ?_⟩
      intro o; simp [Pool.init, St.init]

theorem count_map_fst (l : List (Nat × Nat)) (o : Nat) : List.count o (l.map (·.1)) = l.countP (·.1 = o) := by
  rw [List.count, List.countP_map]; congr 1

theorem holders_count (c : Cfg T) (s : St T) (o : Nat) : List.count o (holders c s) =
    List.count o (pubHeld c.threads s.pc) + s.queue.countP (·.1 = o) + s.hand.countP (·.1 = o) + s.kept.countP (·.1 = o) := by
  simp only [holders, List.count_append, count_map_fst]

theorem pubHeld_mem {n : Nat} {pc : Nat → Pc T} {t o : Nat} (ht : t < n) (h : (pc t).obj = some o) : 0 < List.count o (pubHeld n pc) := by
  apply List.count_pos_iff.mpr
  exact List.mem_filterMap.mpr ⟨t, List.mem_range.mpr ht, h⟩

/-- Objects that somebody holds are counted. -/
theorem Inv.pc_pos {c : Cfg T} {s : St T} (hi : Inv c s) {t o : Nat} (ht : t < c.threads) (h : (s.pc t).obj = some o) : 0 < s.rc o := by
  rw [hi.cnt, holders_count]; have := pubHeld_mem ht h; omega

theorem Inv.queue_pos {c : Cfg T} {s : St T} (hi : Inv c s) {x : Nat × Nat} (h : x ∈ s.queue) : 0 < s.rc x.1 := by
  rw [hi.cnt, holders_count]
  have : 0 < s.queue.countP (·.1 = x.1) := List.countP_pos_iff.mpr ⟨x, h, by simp⟩
  omega

theorem Inv.hand_pos {c : Cfg T} {s : St T} (hi : Inv c s) {x : Nat × Nat} (h : x ∈ s.hand) : 0 < s.rc x.1 := by
  rw [hi.cnt, holders_count]
  have : 0 < s.hand.countP (·.1 = x.1) := List.countP_pos_iff.mpr ⟨x, h, by simp⟩
  omega

theorem Inv.kept_pos {c : Cfg T} {s : St T} (hi : Inv c s) {x : Nat × Nat} (h : x ∈ s.kept) : 0 < s.rc x.1 := by
  rw [hi.cnt, holders_count]
  have : 0 < s.kept.countP (·.1 = x.1) := List.countP_pos_iff.mpr ⟨x, h, by simp⟩
  omega

/-- An object with one `shared_ptr`, held by publisher thread `t`, is held by nobody else. -/
theorem Inv.sole {c : Cfg T} {s : St T} (hi : Inv c s) {t o : Nat} (ht : t < c.threads) (h : (s.pc t).obj = some o) (h1 : s.rc o = 1) :
    (∀ x ∈ s.queue, x.1 ≠ o) ∧ (∀ x ∈ s.hand, x.1 ≠ o) ∧ (∀ x ∈ s.kept, x.1 ≠ o) ∧ ∀ u, u < c.threads → u ≠ t → (s.pc u).obj ≠ some o := by
  have hc := hi.cnt o
  rw [holders_count, h1] at hc
  have hp := pubHeld_mem ht h
  refine ⟨?_, ?_, ?_, ?_⟩
  · intro x hx e
    have : 0 < s.queue.countP (·.1 = o) := List.countP_pos_iff.mpr ⟨x, hx, by simp [e]⟩
    omega
  · intro x hx e
    have : 0 < s.hand.countP (·.1 = o) := List.countP_pos_iff.mpr ⟨x, hx, by simp [e]⟩
    omega
  · intro x hx e
    have : 0 < s.kept.countP (·.1 = o) := List.countP_pos_iff.mpr ⟨x, hx, by simp [e]⟩
    omega
  · intro u hu hne hu2
    have e := pubHeld_upd s.pc ht (.idle : Pc T) o
    rw [if_pos h] at e
    have hz : ((Pc.idle : Pc T).obj = some o) = False := by simp [Pc.obj]
    simp only [hz, if_false] at e
    have h2 : 0 < List.count o (pubHeld c.threads (upd s.pc t .idle)) := pubHeld_mem hu (by rw [upd_other _ _ hne]; exact hu2)
    omega

/-- Inv of a state in which one more `shared_ptr` to `o` is still counted. -/
structure Pre (c : Cfg T) (s : St T) (o : Nat) : Prop where
  cnt : ∀ x, s.rc x = List.count x (holders c s) + (if x = o then 1 else 0)
  pool : PoolOk c.pub.poolSize s.pool s.rc
  next : c.pub.poolSize ≤ s.next
  high : ∀ o, s.next ≤ o → s.rc o = 0
  got : ∀ t o call, t < c.threads → s.pc t = .got o call → s.rc o = 1
  vmade : ∀ t o k, t < c.threads → s.pc t = .made o k → valOf s k = some (s.content o)
  vqueue : ∀ x ∈ s.queue, valOf s x.2 = some (s.content x.1)
  vhand : ∀ x ∈ s.hand, valOf s x.2 = some (s.content x.1)
  vkept : ∀ x ∈ s.kept, valOf s x.2 = some (s.content x.1)
  vreads : ∀ x ∈ s.reads, valOf s x.1 = some x.2
  pubs : ∀ x ∈ s.pubs, ∃ d, x.2 = x.1.value c d

theorem Pre.unref {c : Cfg T} {s : St T} {o : Nat} (h : Pre c s o) : Inv c (Pipe.unref c s o) := by
  have hpos : 0 < s.rc o := by have := h.cnt o; rw [if_pos rfl] at this; omega
  refine { cnt := ?_, pool := h.pool.unref hpos, next := h.next, high := ?_, got := ?_, vmade := h.vmade, vqueue := h.vqueue,
           vhand := h.vhand, vkept := h.vkept, vreads := h.vreads, pubs := h.pubs }
  · intro x
    show upd s.rc o (s.rc o - 1) x = List.count x (holders c s)
    have := h.cnt x
    by_cases e : x = o
    · subst e; rw [upd_same]; rw [if_pos rfl] at this; omega
    · rw [upd_other _ _ e]; rw [if_neg e] at this; omega
  · intro x hx
    show upd s.rc o (s.rc o - 1) x = 0
    have := h.high x hx
    by_cases e : x = o
    · subst e; rw [upd_same]; omega
    · rw [upd_other _ _ e]; exact this
  · intro t x call ht hg
    show upd s.rc o (s.rc o - 1) x = 1
    have h1 := h.got t x call ht hg
    by_cases e : x = o
    · subst e
      have h2 := h.cnt x
      rw [if_pos rfl, holders_count] at h2
      have h3 := pubHeld_mem (pc := s.pc) ht (o := x) (by rw [show s.pc t = _ from hg]; rfl)
      omega
    · rw [upd_other _ _ e]; exact h1

/-- Does this holder hold `x`? -/
def ind : Option Nat → Nat → Nat
  | some o, x => if x = o then 1 else 0
  | none, _ => 0

theorem ind_eq (q : Option Nat) (x : Nat) : ind q x = if q = some x then 1 else 0 := by
  cases q with
  | none => simp [ind]
  | some o =>
    by_cases e : x = o
    · subst e; simp [ind]
    · have : ¬ o = x := fun h => e h.symm
      simp [ind, e, this]

/-- Thread `t` moves on. -/
theorem pubHeld_move {n : Nat} (pc : Nat → Pc T) {t : Nat} (ht : t < n) {p v : Pc T} (hp : pc t = p) (x : Nat) :
    List.count x (pubHeld n (upd pc t v)) + ind p.obj x = List.count x (pubHeld n pc) + ind v.obj x := by
  have h := pubHeld_upd pc ht v x
  rw [hp] at h
  rw [ind_eq, ind_eq]; exact h

theorem countP_one (y : Nat × Nat) (x : Nat) : ([y] : List (Nat × Nat)).countP (·.1 = x) = if x = y.1 then 1 else 0 := by
  rw [List.countP_singleton]
  by_cases e : x = y.1
  · subst e; simp
  · have : ¬ y.1 = x := fun h => e h.symm
    simp [e, this]

theorem countP_cons' (y : Nat × Nat) (l : List (Nat × Nat)) (x : Nat) : (y :: l).countP (·.1 = x) = l.countP (·.1 = x) + if x = y.1 then 1 else 0 := by
  rw [show y :: l = [y] ++ l from rfl, List.countP_append, countP_one]; omega

theorem countP_eraseIdx {l : List (Nat × Nat)} {i : Nat} {y : Nat × Nat} (h : l[i]? = some y) (x : Nat) :
    l.countP (·.1 = x) = (l.eraseIdx i).countP (·.1 = x) + if x = y.1 then 1 else 0 := by
  induction l generalizing i with
  | nil => simp at h
  | cons z l ih =>
    cases i with
    | zero => simp only [List.getElem?_cons_zero, Option.some.injEq] at h; subst h; rw [List.eraseIdx_cons_zero, countP_cons']
    | succ i =>
      rw [List.getElem?_cons_succ] at h
      rw [List.eraseIdx_cons_succ, countP_cons', countP_cons', ih h]; omega

/-- A thread gets an object nobody holds. -/
theorem Inv.take_obj {c : Cfg T} {s s' : St T} {t o : Nat} {call : Call T} (hi : Inv c s) (ht : t < c.threads) (hidle : s.pc t = .idle)
    (h0 : s.rc o = 0) (hq : s'.queue = s.queue) (hh : s'.hand = s.hand) (hk : s'.kept = s.kept) (hpc : s'.pc = upd s.pc t (.got o call))
    (hrc : s'.rc = upd s.rc o 1) (hct : ∀ x, x ≠ o → s'.content x = s.content x) (hpubs : s'.pubs = s.pubs) (hreads : s'.reads = s.reads)
    (hpool : PoolOk c.pub.poolSize s'.pool s'.rc) (hnext : c.pub.poolSize ≤ s'.next) (hhigh : ∀ x, s'.next ≤ x → s'.rc x = 0) : Inv c s' := by
  have hv : ∀ k, valOf s' k = valOf s k := fun k => by simp [valOf, hpubs]
  have hne : ∀ x, 0 < s.rc x → x ≠ o := by rintro x hx rfl; omega
  have hcnt : ∀ x, s'.rc x = List.count x (holders c s') := by
    intro x
    have h1 := hi.cnt x
    have h2 := pubHeld_move s.pc ht (v := .got o call) hidle x
    simp only [Pc.obj, ind] at h2
    rw [holders_count] at h1 ⊢
    rw [hq, hh, hk, hpc, hrc]
    by_cases e : x = o
    · subst e; rw [upd_same]; rw [if_pos rfl] at h2; omega
    · rw [upd_other _ _ e]; rw [if_neg e] at h2; omega
  have hpcs : ∀ {u : Nat} {p : Pc T}, s'.pc u = p → (u = t ∧ p = .got o call) ∨ (u ≠ t ∧ s.pc u = p) := by
    intro u p h
    rw [hpc] at h
    by_cases e : u = t
    · subst e; rw [upd_same] at h; exact .inl ⟨rfl, h.symm⟩
    · rw [upd_other _ _ e] at h; exact .inr ⟨e, h⟩
  refine { cnt := hcnt, pool := hpool, next := hnext, high := hhigh, got := ?_, vmade := ?_, vqueue := ?_, vhand := ?_, vkept := ?_, vreads := ?_, pubs := ?_ }
  · intro u x cl hu h
    rcases hpcs h with ⟨rfl, h⟩ | ⟨_, h⟩
    · cases h; rw [hrc, upd_same]
    · have h1 := hi.got u x cl hu h
      rw [hrc, upd_other _ _ (hne x (by omega)), h1]
  · intro u x k hu h
    rcases hpcs h with ⟨_, h⟩ | ⟨_, h⟩
    · cases h
    · rw [hv, hct x (hne x (hi.pc_pos hu (by rw [h]; rfl)))]; exact hi.vmade u x k hu h
  · intro x hx; rw [hq] at hx; rw [hv, hct _ (hne _ (hi.queue_pos hx))]; exact hi.vqueue x hx
  · intro x hx; rw [hh] at hx; rw [hv, hct _ (hne _ (hi.hand_pos hx))]; exact hi.vhand x hx
  · intro x hx; rw [hk] at hx; rw [hv, hct _ (hne _ (hi.kept_pos hx))]; exact hi.vkept x hx
  · intro x hx; rw [hreads] at hx; rw [hv]; exact hi.vreads x hx
  · intro x hx; rw [hpubs] at hx; exact hi.pubs x hx

theorem Inv.fresh {c : Cfg T} {s : St T} {t : Nat} {call : Call T} (hi : Inv c s) (ht : t < c.threads) (hidle : s.pc t = .idle)
    {pool : Option Pool} (hp : PoolOk c.pub.poolSize pool s.rc) : Inv c (Pipe.fresh c { s with pool := pool } t call) := by
  have h0 := hi.high s.next (Nat.le_refl _)
  have hpool : PoolOk c.pub.poolSize pool (upd s.rc s.next 1) := by
    refine ⟨hp.none, fun p h => ?_, fun x h1 h2 => by rw [upd_other _ _ (by have := hi.next; omega)]; exact hp.hid x h1 h2⟩
    obtain ⟨h1, h2, h3, h4, h5⟩ := hp.some p h
    refine ⟨h1, h2, h3, h4, fun x => ?_⟩
    rw [h5 x]
    by_cases e : x = s.next
    · subst e; rw [upd_same]; have := hi.next; omega
    · rw [upd_other _ _ e]
  refine hi.take_obj (o := s.next) (call := call) ht hidle h0 rfl rfl rfl rfl rfl (fun x hx => upd_other _ _ hx) rfl rfl hpool
    (Nat.le_succ_of_le hi.next) ?_
  intro x hx
  have hx' : s.next + 1 ≤ x := hx
  show upd s.rc s.next 1 x = 0
  rw [upd_other _ _ (by omega)]; exact hi.high x (by omega)

theorem Pc.cases_upd {pc : Nat → Pc T} {t u : Nat} {v p : Pc T} (h : upd pc t v u = p) : (u = t ∧ p = v) ∨ (u ≠ t ∧ pc u = p) := by
  by_cases e : u = t
  · subst e; rw [upd_same] at h; exact .inl ⟨rfl, h.symm⟩
  · rw [upd_other _ _ e] at h; exact .inr ⟨e, h⟩

theorem Inv.acquire {c : Cfg T} {s s' : St T} {t : Nat} {call : Call T} (hi : Inv c s) (hs : Pipe.step c s (.acquire t call) = some s') : Inv c s' := by
  simp only [Pipe.step] at hs
  split at hs
  · rename_i ht
    split at hs
    · rename_i hidle
      split at hs
      · rename_i p hp
        obtain ⟨h1, h2, h3, h4, h5⟩ := hi.pool.some p hp
        split at hs
        · rename_i p' o ha
          simp only [Option.some.injEq] at hs; subst hs
          simp only [Pool.acquire] at ha
          split at ha
          · rename_i o' r hst
            cases ha
            have ho := (h5 o).mp (by rw [hst]; simp)
            rw [hst, List.nodup_cons] at h4
            refine hi.take_obj (o := o) (call := call) ht hidle ho.2 rfl rfl rfl rfl rfl (fun _ _ => rfl) rfl rfl ?_ hi.next ?_
            · refine ⟨?_, fun q hq => ?_, fun x h1 h2 => by
                dsimp only; rw [upd_other _ _ (by have := ho.1; omega)]; exact hi.pool.hid x h1 h2⟩
              · have := hi.pool.none; rw [hp] at this; simpa using this
              · cases hq
                refine ⟨h1, h2, h3, h4.2, fun x => ?_⟩
                have hx := h5 x
                rw [hst, List.mem_cons] at hx
                by_cases e : x = o
                · subst e
                  show x ∈ r ↔ _ ∧ upd s.rc x 1 x = 0
                  rw [upd_same]
                  constructor
                  · intro h; exact absurd h h4.1
                  · rintro ⟨_, h⟩; cases h
                · show x ∈ r ↔ _ ∧ upd s.rc o 1 x = 0
                  rw [upd_other _ _ e, ← hx]; simp [e]
            · intro x hx
              show upd s.rc o 1 x = 0
              have := hi.next
              rw [upd_other _ _ (by have : s.next ≤ x := hx; omega)]; exact hi.high x hx
          · cases ha
        · rename_i p' ha
          simp only [Option.some.injEq] at hs; subst hs
          refine hi.fresh ht hidle ?_
          simp only [Pool.acquire] at ha
          split at ha
          · cases ha
          · cases ha
            refine ⟨?_, fun q hq => ?_, hi.pool.hid⟩
            · have := hi.pool.none; rw [hp] at this; simpa using this
            · cases hq; exact ⟨h1, h2, h3, h4, h5⟩
      · rename_i hp
        simp only [Option.some.injEq] at hs; subst hs
        have := hi.fresh (call := call) ht hidle hi.pool
        exact this
    · cases hs
  · cases hs

theorem Inv.write {c : Cfg T} {s s' : St T} {t : Nat} (hi : Inv c s) (hs : Pipe.step c s (.write t) = some s') : Inv c s' := by
  simp only [Pipe.step] at hs
  split at hs
  · rename_i ht
    split at hs
    · rename_i o call hg
      simp only [Option.some.injEq] at hs; subst hs
      have h1 := hi.got t o call ht hg
      obtain ⟨sq, sh, sk, sp⟩ := hi.sole ht (by rw [hg]; rfl) h1
      have hv : ∀ k v, valOf s k = some v → valOf { s with content := upd s.content o (call.value c (s.content o)), pubs := s.pubs ++ [(call, call.value c (s.content o))], pc := upd s.pc t (.made o s.pubs.length) } k = some v := by
        intro k v h
        simp only [valOf, Option.map_eq_some_iff] at h ⊢
        obtain ⟨x, hx, rfl⟩ := h
        obtain ⟨hlt, _⟩ := List.getElem?_eq_some_iff.mp hx
        exact ⟨x, by rw [List.getElem?_append_left hlt]; exact hx, rfl⟩
      refine { hi with cnt := ?_, got := ?_, vmade := ?_, vqueue := ?_, vhand := ?_, vkept := ?_, vreads := ?_, pubs := ?_ }
      · intro x
        show s.rc x = _
        have h2 := pubHeld_move s.pc ht (v := .made o s.pubs.length) hg x
        have h3 := hi.cnt x
        rw [holders_count] at h3 ⊢
        simp only [Pc.obj] at h2
        show _ = List.count x (pubHeld c.threads (upd s.pc t (.made o s.pubs.length))) + s.queue.countP (·.1 = x) + s.hand.countP (·.1 = x) + s.kept.countP (·.1 = x)
        omega
      · intro u x cl hu h
        rcases Pc.cases_upd h with ⟨_, h⟩ | ⟨_, h⟩
        · cases h
        · exact hi.got u x cl hu h
      · intro u x k hu h
        rcases Pc.cases_upd h with ⟨_, h⟩ | ⟨hne, h'⟩
        · cases h
          show Option.map _ ((s.pubs ++ [_])[s.pubs.length]?) = some (upd s.content o _ o)
          rw [upd_same]; simp
        · have hx : x ≠ o := by
            rintro rfl
            exact sp u hu hne (by rw [h']; rfl)
          show _ = some (upd s.content o _ x)
          rw [upd_other _ _ hx]
          exact hv k _ (hi.vmade u x k hu h')
      · intro x hx
        show _ = some (upd s.content o _ x.1)
        rw [upd_other _ _ (sq x hx)]; exact hv _ _ (hi.vqueue x hx)
      · intro x hx
        show _ = some (upd s.content o _ x.1)
        rw [upd_other _ _ (sh x hx)]; exact hv _ _ (hi.vhand x hx)
      · intro x hx
        show _ = some (upd s.content o _ x.1)
        rw [upd_other _ _ (sk x hx)]; exact hv _ _ (hi.vkept x hx)
      · intro x hx; exact hv _ _ (hi.vreads x hx)
      · intro x hx
        rcases List.mem_append.mp hx with hx | hx
        · exact hi.pubs x hx
        · rw [List.mem_singleton] at hx; subst hx; exact ⟨s.content o, rfl⟩
    · cases hs
  · cases hs

theorem Inv.push {c : Cfg T} {s s' : St T} {t : Nat} (hi : Inv c s) (hs : Pipe.step c s (.push t) = some s') : Inv c s' := by
  simp only [Pipe.step] at hs
  split at hs
  · rename_i ht
    split at hs
    · rename_i o k hg
      split at hs
      · simp only [Option.some.injEq] at hs; subst hs
        have hpos := hi.pc_pos ht (o := o) (by rw [hg]; rfl)
        refine { hi with cnt := ?_, pool := hi.pool.inc hpos 1, high := ?_, got := ?_, vmade := ?_, vqueue := ?_ }
        · intro x
          have h2 := pubHeld_move s.pc ht (v := .done o) hg x
          have h3 := hi.cnt x
          rw [holders_count] at h3 ⊢
          simp only [Pc.obj] at h2
          show upd s.rc o (s.rc o + 1) x = List.count x (pubHeld c.threads (upd s.pc t (.done o))) + (s.queue ++ [(o, k)]).countP (·.1 = x) + s.hand.countP (·.1 = x) + s.kept.countP (·.1 = x)
          rw [List.countP_append, countP_one]
          by_cases e : x = o
          · subst e; rw [upd_same, if_pos rfl]; omega
          · rw [upd_other _ _ e, if_neg e]; omega
        · intro x hx
          show upd s.rc o (s.rc o + 1) x = 0
          have := hi.high x hx
          rw [upd_other _ _ (by rintro rfl; omega)]; exact this
        · intro u x cl hu h
          rcases Pc.cases_upd h with ⟨_, h⟩ | ⟨hne, h⟩
          · cases h
          · have h1 := hi.got u x cl hu h
            have := (hi.sole hu (by rw [h]; rfl) h1).2.2.2 t ht (fun e => hne e.symm)
            show upd s.rc o (s.rc o + 1) x = 1
            rw [upd_other _ _ (by rintro rfl; exact this (by rw [hg]; rfl))]; exact h1
        · intro u x k' hu h
          rcases Pc.cases_upd h with ⟨_, h⟩ | ⟨_, h⟩
          · cases h
          · exact hi.vmade u x k' hu h
        · intro x hx
          rcases List.mem_append.mp hx with hx | hx
          · exact hi.vqueue x hx
          · rw [List.mem_singleton] at hx; subst hx; exact hi.vmade t o k ht hg
      · cases hs
    · cases hs
  · cases hs

theorem Inv.step {c : Cfg T} {s s' : St T} {a : Act T} (hi : Inv c s) (hs : Pipe.step c s a = some s') : Inv c s' := by
  cases a with
  | acquire t call => exact hi.acquire hs
  | write t => exact hi.write hs
  | push t => exact hi.push hs
  | dropOld t =>
    simp only [Pipe.step] at hs
    split at hs
    · split at hs
      · rename_i o k r hpc hq
        simp only [Option.some.injEq] at hs; subst hs
        have hpre : Pre c { s with queue := r, discarded := s.discarded + 1, lost := s.lost ++ [k] } o := by
          refine { hi with cnt := ?_, vqueue := fun x hx => hi.vqueue x (by rw [hq]; exact List.mem_cons_of_mem _ hx) }
          intro x
          have h3 := hi.cnt x
          rw [holders_count, hq, countP_cons'] at h3
          rw [holders_count]
          show s.rc x = List.count x (pubHeld c.threads s.pc) + r.countP (·.1 = x) + s.hand.countP (·.1 = x) + s.kept.countP (·.1 = x) + _
          simp only at h3
          omega
        exact hpre.unref
      · cases hs
    · cases hs
  | refuse t =>
    simp only [Pipe.step] at hs
    split at hs
    · rename_i hc
      split at hs
      · rename_i o k hg
        simp only [Option.some.injEq] at hs; subst hs
        refine { hi with cnt := ?_, got := ?_, vmade := ?_ }
        · intro x
          have h2 := pubHeld_move s.pc hc.1 (v := .done o) hg x
          have h3 := hi.cnt x
          rw [holders_count] at h3 ⊢
          simp only [Pc.obj] at h2
          show s.rc x = List.count x (pubHeld c.threads (upd s.pc t (.done o))) + s.queue.countP (·.1 = x) + s.hand.countP (·.1 = x) + s.kept.countP (·.1 = x)
          omega
        · intro u x cl hu h
          rcases Pc.cases_upd h with ⟨_, h⟩ | ⟨_, h⟩
          · cases h
          · exact hi.got u x cl hu h
        · intro u x k' hu h
          rcases Pc.cases_upd h with ⟨_, h⟩ | ⟨_, h⟩
          · cases h
          · exact hi.vmade u x k' hu h
      · cases hs
    · cases hs
  | finish t =>
    simp only [Pipe.step] at hs
    split at hs
    · rename_i ht
      split at hs
      · rename_i o hg
        simp only [Option.some.injEq] at hs; subst hs
        have hpre : Pre c { s with pc := upd s.pc t .idle } o := by
          refine { hi with cnt := ?_, got := ?_, vmade := ?_ }
          · intro x
            have h2 := pubHeld_move s.pc ht (v := .idle) hg x
            have h3 := hi.cnt x
            rw [holders_count] at h3 ⊢
            simp only [Pc.obj, ind] at h2
            show s.rc x = List.count x (pubHeld c.threads (upd s.pc t .idle)) + s.queue.countP (·.1 = x) + s.hand.countP (·.1 = x) + s.kept.countP (·.1 = x) + _
            omega
          · intro u x cl hu h
            rcases Pc.cases_upd h with ⟨_, h⟩ | ⟨_, h⟩
            · cases h
            · exact hi.got u x cl hu h
          · intro u x k' hu h
            rcases Pc.cases_upd h with ⟨_, h⟩ | ⟨_, h⟩
            · cases h
            · exact hi.vmade u x k' hu h
        exact hpre.unref
      · cases hs
    · cases hs
  | take =>
    simp only [Pipe.step] at hs
    split at hs
    · rename_i y r hh hq
      simp only [Option.some.injEq] at hs; subst hs
      refine { hi with cnt := ?_, vqueue := fun x hx => hi.vqueue x (by rw [hq]; exact List.mem_cons_of_mem _ hx), vhand := ?_ }
      · intro x
        have h3 := hi.cnt x
        rw [holders_count, hq, hh, countP_cons'] at h3
        rw [holders_count]
        show s.rc x = List.count x (pubHeld c.threads s.pc) + r.countP (·.1 = x) + [y].countP (·.1 = x) + s.kept.countP (·.1 = x)
        rw [countP_one]
        simp only [List.countP_nil] at h3
        omega
      · intro x hx
        rw [List.mem_singleton] at hx; subst hx
        exact hi.vqueue x (by rw [hq]; simp)
    · cases hs
  | read =>
    simp only [Pipe.step] at hs
    split at hs
    · rename_i o k r hh
      simp only [Option.some.injEq] at hs; subst hs
      refine { hi with vreads := ?_ }
      intro x hx
      rcases List.mem_append.mp hx with hx | hx
      · exact hi.vreads x hx
      · rw [List.mem_singleton] at hx; subst hx; exact hi.vhand (o, k) (by rw [hh]; simp)
    · cases hs
  | keep =>
    simp only [Pipe.step] at hs
    split at hs
    · rename_i o k r hh
      split at hs
      · simp only [Option.some.injEq] at hs; subst hs
        have hmem : (o, k) ∈ s.hand := by rw [hh]; simp
        have hpos : 0 < s.rc o := hi.hand_pos hmem
        refine { hi with cnt := ?_, pool := hi.pool.inc hpos 1, high := ?_, got := ?_, vkept := ?_ }
        · intro x
          have h3 := hi.cnt x
          rw [holders_count] at h3 ⊢
          show upd s.rc o (s.rc o + 1) x = List.count x (pubHeld c.threads s.pc) + s.queue.countP (·.1 = x) + s.hand.countP (·.1 = x) + (s.kept ++ [(o, k)]).countP (·.1 = x)
          rw [List.countP_append, countP_one]
          by_cases e : x = o
          · subst e; rw [upd_same, if_pos rfl]; omega
          · rw [upd_other _ _ e, if_neg e]; omega
        · intro x hx
          show upd s.rc o (s.rc o + 1) x = 0
          have := hi.high x hx
          rw [upd_other _ _ (by rintro rfl; omega)]; exact this
        · intro u x cl hu h
          have h1 := hi.got u x cl hu h
          have := (hi.sole hu (by rw [show s.pc u = _ from h]; rfl) h1).2.1 (o, k) hmem
          show upd s.rc o (s.rc o + 1) x = 1
          rw [upd_other _ _ (fun e => this e.symm)]; exact h1
        · intro x hx
          rcases List.mem_append.mp hx with hx | hx
          · exact hi.vkept x hx
          · rw [List.mem_singleton] at hx; subst hx; exact hi.vhand _ hmem
      · cases hs
    · cases hs
  | readKept i =>
    simp only [Pipe.step] at hs
    split at hs
    · rename_i o k hk
      simp only [Option.some.injEq] at hs; subst hs
      refine { hi with vreads := ?_ }
      intro x hx
      rcases List.mem_append.mp hx with hx | hx
      · exact hi.vreads x hx
      · rw [List.mem_singleton] at hx; subst hx; exact hi.vkept (o, k) (List.mem_of_getElem? hk)
    · cases hs
  | dropKept i =>
    simp only [Pipe.step] at hs
    split at hs
    · rename_i o k hk
      simp only [Option.some.injEq] at hs; subst hs
      have hpre : Pre c { s with kept := s.kept.eraseIdx i } o := by
        refine { hi with cnt := ?_, vkept := fun x hx => hi.vkept x (List.mem_of_mem_eraseIdx hx) }
        intro x
        have h3 := hi.cnt x
        rw [holders_count, countP_eraseIdx hk] at h3
        rw [holders_count]
        show s.rc x = List.count x (pubHeld c.threads s.pc) + s.queue.countP (·.1 = x) + s.hand.countP (·.1 = x) + (s.kept.eraseIdx i).countP (·.1 = x) + _
        simp only at h3
        omega
      exact hpre.unref
    · cases hs
  | release =>
    simp only [Pipe.step] at hs
    split at hs
    · rename_i o k r hh
      simp only [Option.some.injEq] at hs; subst hs
      have hpre : Pre c { s with hand := r } o := by
        refine { hi with cnt := ?_, vhand := fun x hx => hi.vhand x (by rw [hh]; exact List.mem_cons_of_mem _ hx) }
        intro x
        have h3 := hi.cnt x
        rw [holders_count, hh, countP_cons'] at h3
        rw [holders_count]
        show s.rc x = List.count x (pubHeld c.threads s.pc) + s.queue.countP (·.1 = x) + r.countP (·.1 = x) + s.kept.countP (·.1 = x) + _
        simp only at h3
        omega
      exact hpre.unref
    · cases hs

theorem Reach.inv {c : Cfg T} {s : St T} (h : Reach c s) : Inv c s := by
  induction h with
  | init => exact inv_init c
  | step _ hs ih => exact ih.step hs

theorem Reach.run {c : Cfg T} {as : List (Act T)} {s s' : St T} (h : Reach c s) (hr : Pipe.run c s as = some s') : Reach c s' := by
  induction as generalizing s with
  | nil => cases hr; exact h
  | cons a as ih =>
    simp only [Pipe.run] at hr
    split at hr
    · cases hr
    · rename_i s1 hs; exact ih (.step h hs) hr

end Verif.Pipe
