import Verif.Model.RefPath
import Verif.Lemmas.Pipeline
import Mathlib.Tactic.Tauto

/-! Lemmas for C78. -/

namespace Verif.RefP
open Verif Verif.Pool

variable {T : Type} {C : Chan Tag}

/-- What the holders of `shared_ptr`s rely on: an event gets into the middleware only as the argument of a call of `publish`. -/
structure Lawful {D : Type} (C : Chan D) (R : C.S → Prop) (P : C.S → C.A → Prop) : Prop where
  init : R C.init
  step : ∀ {s s' a}, R s → P s a → C.step s a = some s' → R s'
  held_init : C.held C.init = []
  arg_init : ∀ t d, ¬ C.arg C.init t d
  held_step : ∀ {s s' a}, R s → P s a → C.step s a = some s' → ∀ d ∈ C.held s', d ∈ C.held s ∨ ∃ t, C.arg s t d ∨ C.call a = some (t, d)
  arg_step : ∀ {s s' a}, R s → P s a → C.step s a = some s' → ∀ t d, C.arg s' t d → C.arg s t d ∨ C.call a = some (t, d)
  cur_held : ∀ {s d}, R s → C.cur s = some d → d ∈ C.held s
  arg_busy : ∀ {s t d}, R s → C.arg s t d → C.busy s t = true

/-! ### The pool -/

/-- The pool and the objects that are held. -/
structure PoolOk (n : Nat) (pool : Option Pool) (held : List Nat) : Prop where
  none : n = 0 → pool = none
  some : ∀ p, pool = some p → p.alive = true ∧ p.cap = min n 65535 ∧ p.deleted = [] ∧ p.stack.Nodup ∧ p.hidden = (List.range n).drop 65535 ∧
    p.finalized = [] ∧ ∀ o, o ∈ p.stack ↔ o < min n 65535 ∧ o ∉ held
  ex : n ≠ 0 → ∃ p, pool = .some p

theorem release_fold {n : Nat} (l : List Nat) (p : Pool) (hl : l.Nodup) (ha : p.alive = true) (hc : p.cap = n) (hn : p.stack.Nodup) (hb : ∀ o ∈ p.stack, o < n)
    (hd : ∀ o ∈ l, o ∉ p.stack) (hm : ∀ o ∈ l, o < n) :
    (l.foldl Pool.release p) = { p with stack := l.reverse ++ p.stack } := by
  induction l generalizing p with
  | nil => simp
  | cons o l ih =>
    have hlen : p.stack.length < p.cap := by
      have h1 : (o :: p.stack).length ≤ (List.range n).length := by
        apply List.Subperm.length_le
        apply List.Nodup.subperm
        · exact List.nodup_cons.mpr ⟨hd o (by simp), hn⟩
        · intro x hx
          rcases List.mem_cons.mp hx with hx | hx
          · exact List.mem_range.mpr (hx ▸ hm o (by simp))
          · exact List.mem_range.mpr (hb x hx)
      simp at h1
      omega
    have hr : p.release o = { p with stack := o :: p.stack } := by simp [Pool.release, ha, hlen]
    rw [List.foldl_cons, hr, ih]
    · simp
    · exact (List.nodup_cons.mp hl).2
    · exact ha
    · exact hc
    · exact List.nodup_cons.mpr ⟨hd o (by simp), hn⟩
    · intro x hx
      rcases List.mem_cons.mp hx with hx | hx
      · exact hx ▸ hm o (by simp)
      · exact hb x hx
    · intro x hx hm'
      rcases List.mem_cons.mp hm' with hx' | hx'
      · exact (List.nodup_cons.mp hl).1 (hx' ▸ hx)
      · exact hd x (by simp [hx]) hx'
    · intro x hx; exact hm x (by simp [hx])

/-- The middleware, threads and listeners give up objects. -/
theorem PoolOk.release {n : Nat} {pool : Option Pool} {held held' : List Nat} (h : PoolOk n pool held) (hsub : ∀ o ∈ held', o ∈ held)
    (hrg : ∀ o ∈ held, o < min n 65535 ∨ n ≤ o) :
    PoolOk n (pool.map fun p => ((held.filter (fun o => decide (o ∉ held' ∧ o < n))).dedup).foldl Pool.release p) held' := by
  constructor
  · intro hn; rw [h.none hn]; rfl
  · intro p hp
    obtain ⟨q, hq, rfl⟩ := Option.map_eq_some_iff.mp hp
    obtain ⟨h1, h2, h3, h4, h5, h6, h7⟩ := h.some q hq
    have hmem : ∀ o, o ∈ (held.filter (fun o => decide (o ∉ held' ∧ o < n))).dedup ↔ o ∈ held ∧ o ∉ held' ∧ o < n := by
      intro o; simp [List.mem_dedup, List.mem_filter]
    rw [release_fold (n := min n 65535) _ q (List.nodup_dedup _) h1 h2 h4 (fun o ho => ((h7 o).mp ho).1)
      (fun o ho hs => ((h7 o).mp hs).2 ((hmem o).mp ho).1) (fun o ho => by
        have := (hmem o).mp ho
        rcases hrg o this.1 with h | h
        · exact h
        · omega)]
    refine ⟨h1, h2, h3, ?_, h5, h6, fun o => ?_⟩
    · rw [List.nodup_append]
      refine ⟨(List.reverse_perm _).nodup_iff.mpr (List.nodup_dedup _), h4, fun a ha b hb e => ?_⟩
      subst e
      exact ((h7 a).mp hb).2 ((hmem a).mp (List.mem_reverse.mp ha)).1
    · simp only [List.mem_append, List.mem_reverse, hmem, h7]
      constructor
      · rintro (⟨a, b, d⟩ | ⟨a, b⟩)
        · rcases hrg o a with e | e
          · exact ⟨e, b⟩
          · omega
        · exact ⟨a, fun hm => b (hsub o hm)⟩
      · rintro ⟨a, b⟩
        by_cases e : o ∈ held
        · exact .inl ⟨e, b, by omega⟩
        · exact .inr ⟨a, e⟩
  · intro hn
    obtain ⟨p, hp⟩ := h.ex hn
    rw [hp]; exact ⟨_, rfl⟩

/-! ### The invariant -/

def valOf (s : St T C) (k : Nat) : Option T := (s.pubs[k]?).map (·.2)

theorem mem_held {s : St T C} {x : Nat × Nat} : x ∈ s.heldEvents ↔ some x ∈ C.held s.ch := by
  simp [St.heldEvents, List.mem_filterMap]

theorem mem_refs {c : Cfg T} {s : St T C} {o : Nat} : o ∈ refs c s ↔
    (∃ k, (o, k) ∈ s.heldEvents) ∨ (∃ t, t < c.threads ∧ (s.pc t).obj = some o) ∨ ∃ k, (o, k) ∈ s.kept := by
  simp [refs, List.mem_append, List.mem_map, or_assoc]

structure Inv (c : Cfg T) (R : C.S → Prop) (s : St T C) : Prop where
  ch : R s.ch
  pool : PoolOk c.pub.poolSize s.pool (refs c s)
  rng : ∀ o ∈ refs c s, (o < min c.pub.poolSize 65535 ∨ c.pub.poolSize ≤ o) ∧ o < s.next
  got : ∀ t o call, t < c.threads → s.pc t = .got o call → (∀ k, (o, k) ∉ s.heldEvents) ∧ (∀ k, (o, k) ∉ s.kept) ∧
    ∀ u, u < c.threads → u ≠ t → (s.pc u).obj ≠ some o
  vheld : ∀ x ∈ s.heldEvents, valOf s x.2 = some (s.content x.1)
  vkept : ∀ x ∈ s.kept, valOf s x.2 = some (s.content x.1)
  vmade : ∀ t o k, t < c.threads → s.pc t = .made o k → valOf s k = some (s.content o)
  vsent : ∀ t o k, t < c.threads → s.pc t = .sent o k → valOf s k = some (s.content o)
  arg : ∀ t o k, C.arg s.ch t (some (o, k)) → t < c.threads ∧ s.pc t = .sent o k
  vreads : ∀ x ∈ s.reads, valOf s x.1 = some x.2
  pubs : ∀ x ∈ s.pubs, ∃ d, x.2 = value c d x.1
  len : s.kept.length ≤ c.maxKept
  all : s.allocs = s.next
  nx : c.pub.poolSize ≤ s.next

theorem inv_init {R : C.S → Prop} {P : C.S → C.A → Prop} (L : Lawful C R P) (c : Cfg T) : Inv c R (St.init c : St T C) := by
  have h0 : (St.init c : St T C).heldEvents = [] := by simp [St.heldEvents, St.init, L.held_init]
  have hr : refs c (St.init c : St T C) = [] := by
    have : ((List.range c.threads).filterMap fun t => ((St.init c : St T C).pc t).obj) = [] := by
      apply List.filterMap_eq_nil_iff.mpr; intro a _; rfl
    unfold refs; rw [h0, this]; rfl
  constructor
  · exact L.init
  · rw [hr]
    constructor
    · intro h; simp [St.init, h]
    · intro p hp
      simp only [St.init] at hp
      split at hp
      · cases hp
      · cases hp
        refine ⟨rfl, rfl, rfl, List.nodup_range, rfl, rfl, fun o => ?_⟩
        simp [Pool.init]
    · intro h; exact ⟨Pool.init c.pub.poolSize, by simp [St.init, h]⟩
  · rw [hr]; simp
  · intro t o call _ h; cases h
  · rw [h0]; simp
  · intro x hx; cases hx
  · intro t o k _ h; cases h
  · intro t o k _ h; cases h
  · intro t o k h; exact absurd h (L.arg_init _ _)
  · intro x hx; cases hx
  · intro x hx; cases hx
  · exact Nat.zero_le _
  · rfl
  · exact Nat.le_refl _

/-- Fewer `shared_ptr`s, no writes: everything but the pool stays as it is, the objects given up go to the pool. -/
theorem Inv.settle {c : Cfg T} {R : C.S → Prop} {s s' : St T C} (hi : Inv c R s) (hch : R s'.ch) (hpool : s'.pool = s.pool) (hcon : s'.content = s.content)
    (hnext : s'.next = s.next) (hall : s'.allocs = s.allocs) (hpubs : s'.pubs = s.pubs) (hreads : s'.reads = s.reads)
    (hheld : ∀ o k, (o, k) ∈ s'.heldEvents → valOf s k = some (s.content o) ∧ ((o, k) ∈ s.heldEvents ∨ ∃ t, t < c.threads ∧
      ∃ k', s.pc t = .made o k' ∨ s.pc t = .sent o k'))
    (hkept : ∀ x ∈ s'.kept, x ∈ s.kept) (hlen : s'.kept.length ≤ s.kept.length)
    (hpc : ∀ t, t < c.threads → s'.pc t = s.pc t ∨ s'.pc t = .idle ∨ ∃ o k, s.pc t = .made o k ∧ s'.pc t = .sent o k)
    (harg : ∀ t o k, C.arg s'.ch t (some (o, k)) → t < c.threads ∧ s'.pc t = .sent o k) : Inv c R (RefP.settle c s s') := by
  have hobj : ∀ t, t < c.threads → ∀ o, (s'.pc t).obj = some o → (s.pc t).obj = some o := by
    intro t ht o h
    rcases hpc t ht with e | e | ⟨o', k', e, e'⟩
    · rwa [e] at h
    · rw [e] at h; cases h
    · rw [e'] at h; rw [e]; exact h
  have hsub : ∀ o ∈ refs c s', o ∈ refs c s := by
    intro o ho
    rw [mem_refs] at ho ⊢
    rcases ho with ⟨k, hk⟩ | ⟨t, ht, e⟩ | ⟨k, hk⟩
    · rcases (hheld o k hk).2 with h | ⟨t, ht, k', h⟩
      · exact .inl ⟨k, h⟩
      · refine .inr (.inl ⟨t, ht, ?_⟩)
        rcases h with h | h <;> rw [h] <;> rfl
    · exact .inr (.inl ⟨t, ht, hobj t ht o e⟩)
    · exact .inr (.inr ⟨k, hkept _ hk⟩)
  have hval : ∀ k, valOf (RefP.settle c s s') k = valOf s k := by
    intro k; simp [valOf, RefP.settle, hpubs]
  have href : refs c (RefP.settle c s s') = refs c s' := rfl
  constructor
  · exact hch
  · rw [href]
    have := hi.pool.release (held' := refs c s') hsub (fun o ho => (hi.rng o ho).1)
    simp only [RefP.settle]
    rw [hpool]
    exact this
  · rw [href]
    intro o ho
    have := hi.rng o (hsub o ho)
    exact ⟨this.1, by simpa [RefP.settle, hnext] using this.2⟩
  · intro t o call ht hg
    have hg' : s.pc t = .got o call := by
      have hg : s'.pc t = .got o call := hg
      rcases hpc t ht with e | e | ⟨o', k', e, e'⟩
      · rw [← e]; exact hg
      · rw [e] at hg; cases hg
      · rw [e'] at hg; cases hg
    obtain ⟨a, b, d⟩ := hi.got t o call ht hg'
    refine ⟨fun k hk => ?_, fun k hk => b k (hkept _ hk), fun u hu hne e => d u hu hne (hobj u hu o e)⟩
    rcases (hheld o k hk).2 with h | ⟨u, hu, k', h⟩
    · exact a k h
    · by_cases hut : u = t
      · subst hut; rw [hg'] at h; rcases h with h | h <;> cases h
      · apply d u hu hut
        rcases h with h | h <;> rw [h] <;> rfl
  · intro x hx
    rw [hval]
    have := (hheld x.1 x.2 hx).1
    simpa [RefP.settle, hcon] using this
  · intro x hx
    rw [hval]
    simpa [RefP.settle, hcon] using hi.vkept x (hkept x hx)
  · intro t o k ht h
    have h : s'.pc t = .made o k := h
    rw [hval]
    have : s.pc t = .made o k := by
      rcases hpc t ht with e | e | ⟨o', k', e, e'⟩
      · rw [← e]; exact h
      · rw [e] at h; cases h
      · rw [e'] at h; cases h
    simpa [RefP.settle, hcon] using hi.vmade t o k ht this
  · intro t o k ht h
    have h : s'.pc t = .sent o k := h
    rw [hval]
    have : valOf s k = some (s.content o) := by
      rcases hpc t ht with e | e | ⟨o', k', e, e'⟩
      · exact hi.vsent t o k ht (by rw [← e]; exact h)
      · rw [e] at h; cases h
      · rw [e'] at h; cases h; exact hi.vmade t o k ht e
    simpa [RefP.settle, hcon] using this
  · exact harg
  · intro x hx
    rw [hval]
    exact hi.vreads x (by simpa [RefP.settle, hreads] using hx)
  · intro x hx
    exact hi.pubs x (by simpa [RefP.settle, hpubs] using hx)
  · have := hi.len
    simp only [RefP.settle]; omega
  · simpa [RefP.settle, hall, hnext] using hi.all
  · simpa [RefP.settle, hnext] using hi.nx

theorem pc_upd {pc : Nat → Pc T} {t u : Nat} {v p : Pc T} (h : upd pc t v u = p) : (u = t ∧ p = v) ∨ (u ≠ t ∧ pc u = p) := by
  by_cases e : u = t
  · subst e; rw [upd_same] at h; exact .inl ⟨rfl, h.symm⟩
  · rw [upd_other _ _ e] at h; exact .inr ⟨e, h⟩

/-- A thread takes an object nobody holds. -/
theorem Inv.take {c : Cfg T} {R : C.S → Prop} {s s' : St T C} {t o : Nat} {call : Pipe.Call T} (hi : Inv c R s) (ht : t < c.threads)
    (hidle : s.pc t = .idle) (ho : o ∉ refs c s) (hrg : (o < min c.pub.poolSize 65535 ∨ c.pub.poolSize ≤ o) ∧ o < s'.next)
    (hch : s'.ch = s.ch) (hpc : s'.pc = upd s.pc t (.got o call)) (hkept : s'.kept = s.kept) (hpubs : s'.pubs = s.pubs) (hreads : s'.reads = s.reads)
    (hcon : ∀ x, x ≠ o → s'.content x = s.content x) (hnext : s.next ≤ s'.next) (hall : s'.allocs = s'.next)
    (hpool : PoolOk c.pub.poolSize s'.pool (o :: refs c s)) : Inv c R s' := by
  have hheld : s'.heldEvents = s.heldEvents := by simp [St.heldEvents, hch]
  have hval : ∀ k, valOf s' k = valOf s k := by intro k; simp [valOf, hpubs]
  have href : ∀ x, x ∈ refs c s' ↔ x = o ∨ x ∈ refs c s := by
    intro x
    rw [mem_refs, mem_refs, hheld, hkept, hpc]
    constructor
    · rintro (h | ⟨u, hu, e⟩ | h)
      · tauto
      · by_cases hut : u = t
        · subst hut; rw [upd_same] at e; cases e; exact .inl rfl
        · rw [upd_other _ _ hut] at e; exact .inr (.inr (.inl ⟨u, hu, e⟩))
      · tauto
    · rintro (h | h | ⟨u, hu, e⟩ | h)
      · exact .inr (.inl ⟨t, ht, by rw [upd_same, h]; rfl⟩)
      · tauto
      · refine .inr (.inl ⟨u, hu, ?_⟩)
        rw [upd_other]
        · exact e
        · rintro rfl; rw [hidle] at e; cases e
      · tauto
  have hne : ∀ x, x ∈ refs c s → x ≠ o := fun x hx e => ho (e ▸ hx)
  constructor
  · rw [hch]; exact hi.ch
  · refine ⟨hpool.none, fun p hp => ?_, hpool.ex⟩
    obtain ⟨h1, h2, h3, h4, h5, h6, h7⟩ := hpool.some p hp
    refine ⟨h1, h2, h3, h4, h5, h6, fun x => ?_⟩
    rw [h7 x, href x, List.mem_cons]
  · intro x hx
    rcases (href x).mp hx with e | e
    · subst e; exact hrg
    · have := hi.rng x e; exact ⟨this.1, by omega⟩
  · intro u x call' hu hg
    rw [hpc] at hg
    rw [hheld, hkept]
    rcases pc_upd hg with ⟨rfl, e⟩ | ⟨e, hg'⟩
    · cases e
      refine ⟨fun k hk => ho (mem_refs.mpr (.inl ⟨k, hk⟩)), fun k hk => ho (mem_refs.mpr (.inr (.inr ⟨k, hk⟩))), fun v hv hne' e => ?_⟩
      rw [hpc, upd_other _ _ hne'] at e
      exact ho (mem_refs.mpr (.inr (.inl ⟨v, hv, e⟩)))
    · obtain ⟨a, b, d⟩ := hi.got u x call' hu hg'
      refine ⟨a, b, fun v hv hne' e' => ?_⟩
      rw [hpc] at e'
      by_cases hvt : v = t
      · subst hvt; rw [upd_same] at e'; cases e'
        exact ho (mem_refs.mpr (.inr (.inl ⟨u, hu, by rw [hg']; rfl⟩)))
      · rw [upd_other _ _ hvt] at e'; exact d v hv hne' e'
  · intro x hx
    rw [hheld] at hx
    rw [hval, hcon _ (hne _ (mem_refs.mpr (.inl ⟨x.2, hx⟩)))]
    exact hi.vheld x hx
  · intro x hx
    rw [hkept] at hx
    rw [hval, hcon _ (hne _ (mem_refs.mpr (.inr (.inr ⟨x.2, hx⟩))))]
    exact hi.vkept x hx
  · intro u x k hu hg
    rw [hpc] at hg
    rcases pc_upd hg with ⟨_, e⟩ | ⟨_, hg'⟩
    · cases e
    · rw [hval, hcon _ (hne _ (mem_refs.mpr (.inr (.inl ⟨u, hu, by rw [hg']; rfl⟩))))]
      exact hi.vmade u x k hu hg'
  · intro u x k hu hg
    rw [hpc] at hg
    rcases pc_upd hg with ⟨_, e⟩ | ⟨_, hg'⟩
    · cases e
    · rw [hval, hcon _ (hne _ (mem_refs.mpr (.inr (.inl ⟨u, hu, by rw [hg']; rfl⟩))))]
      exact hi.vsent u x k hu hg'
  · intro u x k ha
    rw [hch] at ha
    obtain ⟨h1, h2⟩ := hi.arg u x k ha
    refine ⟨h1, ?_⟩
    rw [hpc, upd_other]
    · exact h2
    · rintro rfl; rw [hidle] at h2; cases h2
  · intro x hx
    rw [hreads] at hx; rw [hval]; exact hi.vreads x hx
  · intro x hx
    rw [hpubs] at hx; exact hi.pubs x hx
  · rw [hkept]; exact hi.len
  · exact hall
  · have := hi.nx; omega

theorem Inv.fresh {c : Cfg T} {R : C.S → Prop} {s : St T C} {t : Nat} {call : Pipe.Call T} (hi : Inv c R s) (ht : t < c.threads)
    (hidle : s.pc t = .idle) (p' : Option Pool) (hp : PoolOk c.pub.poolSize p' (refs c s)) : Inv c R (RefP.fresh c { s with pool := p' } t call) := by
  have ho : s.next ∉ refs c s := fun h => by have := (hi.rng _ h).2; omega
  refine hi.take (t := t) (o := s.next) (call := call) ht hidle ho ⟨.inr hi.nx, ?_⟩ rfl rfl rfl rfl rfl ?_ ?_ ?_ ?_
  · simp [RefP.fresh]
  · intro x hx; simp [RefP.fresh, upd_other _ _ hx]
  · simp [RefP.fresh]
  · simp [RefP.fresh, hi.all]
  · refine ⟨hp.none, fun p h => ?_, hp.ex⟩
    obtain ⟨h1, h2, h3, h4, h5, h6, h7⟩ := hp.some p h
    refine ⟨h1, h2, h3, h4, h5, h6, fun x => ?_⟩
    rw [h7 x, List.mem_cons]
    constructor
    · rintro ⟨a, b⟩
      refine ⟨a, ?_⟩
      rintro (e | e)
      · have := hi.nx; omega
      · exact b e
    · rintro ⟨a, b⟩; exact ⟨a, fun e => b (.inr e)⟩

theorem Inv.acquire {c : Cfg T} {R : C.S → Prop} {s s' : St T C} {t : Nat} {call : Pipe.Call T} (hi : Inv c R s)
    (hs : RefP.step c s (.acquire t call) = some s') : Inv c R s' := by
  simp only [RefP.step] at hs
  split at hs
  · next ht =>
    split at hs
    · next hidle =>
      split at hs
      · next p hp =>
        obtain ⟨h1, h2, h3, h4, h5, h6, h7⟩ := hi.pool.some p hp
        cases hst : p.stack with
        | cons o r =>
            simp only [Pool.acquire, hst] at hs
            cases hs
            have hm : o ∈ p.stack := by rw [hst]; simp
            have ho := (h7 o).mp hm
            have hnx := hi.nx
            refine hi.take (t := t) (o := o) (call := call) ht hidle ho.2 ⟨.inl ho.1, by dsimp only; omega⟩ rfl rfl rfl rfl rfl (fun _ _ => rfl) (Nat.le_refl _) hi.all ?_
            refine ⟨fun hn => (by have := hi.pool.none hn; rw [hp] at this; cases this), fun q hq => ?_, fun _ => ⟨_, rfl⟩⟩
            cases hq
            rw [hst] at h4
            refine ⟨h1, h2, h3, (List.nodup_cons.mp h4).2, h5, h6, fun x => ?_⟩
            have hx := h7 x
            rw [hst, List.mem_cons] at hx
            constructor
            · intro hr
              refine ⟨(hx.mp (.inr hr)).1, ?_⟩
              rw [List.mem_cons]
              rintro (e | e)
              · subst e; exact (List.nodup_cons.mp h4).1 hr
              · exact (hx.mp (.inr hr)).2 e
            · rintro ⟨a, b⟩
              rw [List.mem_cons] at b
              rcases hx.mpr ⟨a, fun e => b (.inr e)⟩ with e | e
              · exact absurd (.inl e) b
              · exact e
        | nil =>
            simp only [Pool.acquire, hst] at hs
            cases hs
            have hok : PoolOk c.pub.poolSize (some { p with stack := [], fails := p.fails + 1 }) (refs c s) := by
              rw [hst] at h4 h7
              refine ⟨fun hn => (by have := hi.pool.none hn; rw [hp] at this; cases this), fun q hq => ?_, fun _ => ⟨_, rfl⟩⟩
              cases hq
              exact ⟨h1, h2, h3, h4, h5, h6, h7⟩
            exact hi.fresh ht hidle _ hok
      · next hp =>
        cases hs
        have := hi.fresh (call := call) ht hidle s.pool hi.pool
        exact this
    · cases hs
  · cases hs

theorem valOf_append {l : List (Pipe.Call T × T)} {k : Nat} {v : T} (x : Pipe.Call T × T) (h : (l[k]?).map (·.2) = some v) :
    ((l ++ [x])[k]?).map (·.2) = some v := by
  obtain ⟨y, hy, e⟩ := Option.map_eq_some_iff.mp h
  have : k < l.length := by
    rcases Nat.lt_or_ge k l.length with h | h
    · exact h
    · rw [List.getElem?_eq_none h] at hy; cases hy
  rw [List.getElem?_append_left this, hy]; simp [e]

theorem Inv.write {c : Cfg T} {R : C.S → Prop} {s s' : St T C} {t : Nat} (hi : Inv c R s) (hs : RefP.step c s (.write t) = some s') : Inv c R s' := by
  simp only [RefP.step] at hs
  split at hs
  · next ht =>
    split at hs
    · next o call hg =>
      cases hs
      obtain ⟨g1, g2, g3⟩ := hi.got t o call ht hg
      have hobj : ∀ u, ((upd s.pc t (.made o s.pubs.length) : Nat → Pc T) u).obj = (s.pc u).obj := by
        intro u
        by_cases e : u = t
        · subst e; rw [upd_same, hg]; rfl
        · rw [upd_other _ _ e]
      have href : ∀ x (s' : St T C), s'.ch = s.ch → s'.kept = s.kept → s'.pc = upd s.pc t (.made o s.pubs.length) → (x ∈ refs c s' ↔ x ∈ refs c s) := by
        intro x s' h1 h2 h3
        rw [mem_refs, mem_refs, h2, h3]
        simp only [hobj, St.heldEvents, h1]
      have hvo : ∀ x : Nat × Nat, valOf s x.2 = some (s.content x.1) → x.1 ≠ o →
          ((s.pubs ++ [(call, value c (s.content o) call)])[x.2]?).map (·.2) = some (upd s.content o (value c (s.content o) call) x.1) := by
        intro x hx hne
        rw [upd_other _ _ hne]
        exact valOf_append _ hx
      constructor
      · exact hi.ch
      · refine ⟨hi.pool.none, fun p hp => ?_, hi.pool.ex⟩
        obtain ⟨h1, h2, h3, h4, h5, h6, h7⟩ := hi.pool.some p hp
        exact ⟨h1, h2, h3, h4, h5, h6, fun x => by rw [h7 x, href x { s with content := upd s.content o (value c (s.content o) call), pubs := s.pubs ++ [(call, value c (s.content o) call)], pc := upd s.pc t (.made o s.pubs.length) } rfl rfl rfl]⟩
      · intro x hx
        exact hi.rng x ((href x { s with content := upd s.content o (value c (s.content o) call), pubs := s.pubs ++ [(call, value c (s.content o) call)], pc := upd s.pc t (.made o s.pubs.length) } rfl rfl rfl).mp hx)
      · intro u x call' hu hg'
        rcases pc_upd hg' with ⟨_, e⟩ | ⟨e, hg'⟩
        · cases e
        · obtain ⟨a, b, d⟩ := hi.got u x call' hu hg'
          exact ⟨a, b, fun v hv hne e' => d v hv hne (by rw [← hobj v]; exact e')⟩
      · intro x hx
        exact hvo x (hi.vheld x hx) (fun e => g1 x.2 (e ▸ hx))
      · intro x hx
        exact hvo x (hi.vkept x hx) (fun e => g2 x.2 (e ▸ hx))
      · intro u x k hu hg'
        rcases pc_upd hg' with ⟨_, e⟩ | ⟨e, hg'⟩
        · cases e; simp [valOf, upd_same]
        · exact hvo (x, k) (hi.vmade u x k hu hg') (fun e' => g3 u hu e (by rw [hg', ← e']; rfl))
      · intro u x k hu hg'
        rcases pc_upd hg' with ⟨_, e⟩ | ⟨e, hg'⟩
        · cases e
        · exact hvo (x, k) (hi.vsent u x k hu hg') (fun e' => g3 u hu e (by rw [hg', ← e']; rfl))
      · intro u x k ha
        obtain ⟨h1, h2⟩ := hi.arg u x k ha
        refine ⟨h1, ?_⟩
        dsimp only
        rw [upd_other]
        · exact h2
        · rintro rfl; rw [hg] at h2; cases h2
      · intro x hx
        exact valOf_append _ (hi.vreads x hx)
      · intro x hx
        rcases List.mem_append.mp hx with hx | hx
        · exact hi.pubs x hx
        · rw [List.mem_singleton.mp hx]; exact ⟨_, rfl⟩
      · exact hi.len
      · exact hi.all
      · exact hi.nx
    · cases hs
  · cases hs

theorem Inv.step {c : Cfg T} {R : C.S → Prop} {P : C.S → C.A → Prop} (L : Lawful C R P) {s s' : St T C} {a : Act T C} (hi : Inv c R s)
    (hP : ∀ b, a.inner = some b → P s.ch b) (hs : RefP.step c s a = some s') : Inv c R s' := by
  cases a with
  | acquire t call => exact hi.acquire hs
  | write t => exact hi.write hs
  | send t a =>
    simp only [RefP.step] at hs
    split at hs
    · next ht =>
      split at hs
      · next o k hm =>
        split at hs
        · next hc =>
          split at hs
          · next ch' hst =>
            cases hs
            have hP' := hP a rfl
            refine hi.settle (L.step hi.ch hP' hst) rfl rfl rfl rfl rfl rfl ?_ (fun _ h => h) (Nat.le_refl _) ?_ ?_
            · intro o' k' hx
              rcases L.held_step hi.ch hP' hst _ (mem_held.mp hx) with h | ⟨u, h | h⟩
              · exact ⟨hi.vheld (o', k') (mem_held.mpr h), .inl (mem_held.mpr h)⟩
              · obtain ⟨h1, h2⟩ := hi.arg u o' k' h
                exact ⟨hi.vsent u o' k' h1 h2, .inr ⟨u, h1, k', .inr h2⟩⟩
              · rw [hc] at h; cases h
                exact ⟨hi.vmade t o k ht hm, .inr ⟨t, ht, k, .inl hm⟩⟩
            · intro u hu
              by_cases e : u = t
              · subst e; exact .inr (.inr ⟨o, k, hm, upd_same _ _ _⟩)
              · exact .inl (upd_other _ _ e)
            · intro u o' k' ha
              rcases L.arg_step hi.ch hP' hst _ _ ha with h | h
              · obtain ⟨h1, h2⟩ := hi.arg u o' k' h
                refine ⟨h1, (upd_other _ _ ?_).trans h2⟩
                rintro rfl; rw [hm] at h2; cases h2
              · rw [hc] at h; cases h
                exact ⟨ht, upd_same _ _ _⟩
          · cases hs
        · cases hs
      · cases hs
    · cases hs
  | chan a =>
    simp only [RefP.step] at hs
    split at hs
    · cases hs
    · next hnc =>
      split at hs
      · next ch' hst =>
        cases hs
        have hP' := hP a rfl
        refine hi.settle (L.step hi.ch hP' hst) rfl rfl rfl rfl rfl rfl ?_ (fun _ h => h) (Nat.le_refl _) ?_ ?_
        · intro o' k' hx
          rcases L.held_step hi.ch hP' hst _ (mem_held.mp hx) with h | ⟨u, h | h⟩
          · exact ⟨hi.vheld (o', k') (mem_held.mpr h), .inl (mem_held.mpr h)⟩
          · obtain ⟨h1, h2⟩ := hi.arg u o' k' h
            exact ⟨hi.vsent u o' k' h1 h2, .inr ⟨u, h1, k', .inr h2⟩⟩
          · exact absurd h (hnc _ _)
        · intro u _; exact .inl rfl
        · intro u o' k' ha
          rcases L.arg_step hi.ch hP' hst _ _ ha with h | h
          · exact hi.arg u o' k' h
          · exact absurd h (hnc _ _)
      · cases hs
  | finish t =>
    simp only [RefP.step] at hs
    split at hs
    · next ht =>
      split at hs
      · next o k hm =>
        split at hs
        · cases hs
        · next hb =>
          cases hs
          refine hi.settle hi.ch rfl rfl rfl rfl rfl rfl (fun o' k' hx => ⟨hi.vheld (o', k') hx, .inl hx⟩) (fun _ h => h) (Nat.le_refl _) ?_ ?_
          · intro u _
            by_cases e : u = t
            · subst e; exact .inr (.inl (upd_same _ _ _))
            · exact .inl (upd_other _ _ e)
          · intro u o' k' ha
            obtain ⟨h1, h2⟩ := hi.arg u o' k' ha
            refine ⟨h1, (upd_other _ _ ?_).trans h2⟩
            rintro rfl
            exact hb (L.arg_busy hi.ch ha)
      · cases hs
    · cases hs
  | read =>
    simp only [RefP.step] at hs
    split at hs
    · next o k hc =>
      cases hs
      have hv := hi.vheld (o, k) (mem_held.mpr (L.cur_held hi.ch hc))
      refine { hi with vreads := ?_ }
      intro x hx
      rcases List.mem_append.mp hx with hx | hx
      · exact hi.vreads x hx
      · rw [List.mem_singleton.mp hx]; exact hv
    · cases hs
  | keep =>
    simp only [RefP.step] at hs
    split at hs
    · next o k hc =>
      split at hs
      · next hl =>
        cases hs
        have hm : (o, k) ∈ s.heldEvents := mem_held.mpr (L.cur_held hi.ch hc)
        have hv := hi.vheld (o, k) hm
        have href : ∀ x, x ∈ refs c { s with kept := s.kept ++ [(o, k)] } ↔ x ∈ refs c s := by
          intro x
          rw [mem_refs, mem_refs]
          simp only [List.mem_append, List.mem_singleton]
          constructor
          · rintro (h | h | ⟨k', h | h⟩)
            · exact .inl h
            · exact .inr (.inl h)
            · exact .inr (.inr ⟨k', h⟩)
            · cases h; exact .inl ⟨k, hm⟩
          · rintro (h | h | ⟨k', h⟩)
            · exact .inl h
            · exact .inr (.inl h)
            · exact .inr (.inr ⟨k', .inl h⟩)
        refine { hi with pool := ?_, rng := ?_, got := ?_, vkept := ?_, len := ?_ }
        · refine ⟨hi.pool.none, fun p hp => ?_, hi.pool.ex⟩
          obtain ⟨h1, h2, h3, h4, h5, h6, h7⟩ := hi.pool.some p hp
          exact ⟨h1, h2, h3, h4, h5, h6, fun x => by rw [h7 x, href x]⟩
        · intro x hx; exact hi.rng x ((href x).mp hx)
        · intro u x call hu hg
          obtain ⟨a, b, d⟩ := hi.got u x call hu hg
          refine ⟨a, fun k' hk => ?_, d⟩
          rcases List.mem_append.mp hk with hk | hk
          · exact b k' hk
          · cases List.mem_singleton.mp hk; exact a k hm
        · intro x hx
          rcases List.mem_append.mp hx with hx | hx
          · exact hi.vkept x hx
          · rw [List.mem_singleton.mp hx]; exact hv
        · simp; omega
      · cases hs
    · cases hs
  | readKept i =>
    simp only [RefP.step] at hs
    split at hs
    · next o k hc =>
      cases hs
      have hv := hi.vkept (o, k) (List.mem_of_getElem? hc)
      refine { hi with vreads := ?_ }
      intro x hx
      rcases List.mem_append.mp hx with hx | hx
      · exact hi.vreads x hx
      · rw [List.mem_singleton.mp hx]; exact hv
    · cases hs
  | dropKept i =>
    simp only [RefP.step] at hs
    split at hs
    · cases hs
      refine hi.settle hi.ch rfl rfl rfl rfl rfl rfl (fun o' k' hx => ⟨hi.vheld (o', k') hx, .inl hx⟩) (fun x hx => List.mem_of_mem_eraseIdx hx) ?_ (fun _ _ => .inl rfl) hi.arg
      exact List.length_eraseIdx_le _ _
    · cases hs

theorem Reach.inv {c : Cfg T} {R : C.S → Prop} {P : C.S → C.A → Prop} (L : Lawful C R P) {s : St T C} (h : Reach c P s) : Inv c R s := by
  induction h with
  | init => exact inv_init L c
  | step _ hP hs ih => exact ih.step L hP hs

theorem Reach.run {c : Cfg T} {P : C.S → C.A → Prop} (hP : ∀ s a, P s a) {as : List (Act T C)} {s s' : St T C} (h : Reach c P s)
    (hr : RefP.run c s as = some s') : Reach c P s' := by
  induction as generalizing s with
  | nil => cases hr; exact h
  | cons a as ih =>
    simp only [RefP.run] at hr
    split at hr
    · cases hr
    · next s1 hs => exact ih (h.step (fun _ _ => hP _ _) hs) hr

end Verif.RefP
