import Verif.Lemmas.ObjectPool

/-! Property theorems C04 (sequential), C05, C06, C55 (object pool and pooled publisher). -/

namespace Verif.Pool

/-- **C04, any client history.** In every history of acquire, release and destroy, an acquire never hands out
an object that a client holds, and clients never hold an object twice. -/
theorem C04_handles_distinct (n : Nat) (ops : List Op) (s : Sys)
    (hr : (Sys.init n).run ops = some s) :
    s.out.Nodup ∧ (∀ s', s.step .acquire = some s' → ∀ o, s'.out = o :: s.out → o ∉ s.out ∧ o < n) := by
  have h := sysInv_run (sysInv_init n) hr
  have key : ∀ s : Sys, SysInv n s → s.out.Nodup := by
    intro s h
    have := h.perm.nodup_iff.mpr List.nodup_range
    rw [List.nodup_append, List.nodup_append, List.nodup_append] at this
    exact this.1.1.2.1
  refine ⟨key s h, ?_⟩
  intro s' hs o ho
  have h' := sysInv_step h hs
  have hn := key s' h'
  rw [ho] at hn
  have hm : o ∈ List.range n := h'.perm.mem_iff.mp (by simp [ho])
  exact ⟨(List.nodup_cons.mp hn).1, by simpa using hm⟩

/-- **C05, any size.** In every reachable state of a live pool, acquire throws `out_of_range` exactly if clients hold
`min n 65535` objects; a throwing acquire counts one failure and changes nothing else; otherwise one object is
handed out and no failure is counted. -/
theorem C05_acquire_fails_iff (n : Nat) (ops : List Op) (s : Sys)
    (hr : (Sys.init n).run ops = some s) (ha : s.pool.alive = true) :
    (s.out.length = min n 65535 ∧ s.step .acquire = some { s with pool := { s.pool with fails := s.pool.fails + 1 } }
      ∧ s.pool.acquire.2 = .outOfRange) ∨
    (s.out.length < min n 65535 ∧ ∃ o s', s.step .acquire = some s' ∧ s'.out = o :: s.out ∧
      s'.pool.fails = s.pool.fails ∧ s.pool.acquire.2 = .handle o) := by
  have h := sysInv_run (sysInv_init n) hr
  have hl := h.perm.length_eq
  obtain ⟨hd, -, hh⟩ := h.alive ha
  cases hst : s.pool.stack with
  | nil =>
    left
    simp [hst, hd, hh] at hl
    refine ⟨by omega, ?_, by simp [Pool.acquire, hst]⟩
    simp [Sys.step, ha, Pool.acquire, hst]
  | cons o r =>
    right
    simp [hst, hd, hh] at hl
    exact ⟨by omega, o, { pool := { s.pool with stack := r }, out := o :: s.out },
      by simp [Sys.step, ha, Pool.acquire, hst], rfl, rfl, by simp [Pool.acquire, hst]⟩

/-- **C05.** In every reachable state of a live pool of at most 65535 objects, acquire throws `out_of_range` exactly if clients hold
all `n` objects; a throwing acquire counts one failure and changes nothing else; otherwise one object is
handed out and no failure is counted. -/
theorem C05_acquire_fails_iff_all_out (n : Nat) (hn : n ≤ 65535) (ops : List Op) (s : Sys)
    (hr : (Sys.init n).run ops = some s) (ha : s.pool.alive = true) :
    (s.out.length = n ∧ s.step .acquire = some { s with pool := { s.pool with fails := s.pool.fails + 1 } }
      ∧ s.pool.acquire.2 = .outOfRange) ∨
    (s.out.length < n ∧ ∃ o s', s.step .acquire = some s' ∧ s'.out = o :: s.out ∧
      s'.pool.fails = s.pool.fails ∧ s.pool.acquire.2 = .handle o) := by
  have := C05_acquire_fails_iff n ops s hr ha
  rwa [Nat.min_eq_left hn] at this

/-- **C05, larger pools (negation of the claim for n > 65535).** A pool of more than 65535 objects reports exhaustion when clients hold
65535 of them, although the others were created and nobody holds them. -/
theorem C05_oversized_pool_exhausted (n : Nat) (hn : 65535 < n) (ops : List Op) (s : Sys)
    (hr : (Sys.init n).run ops = some s) (ha : s.pool.alive = true) (ho : s.out.length = 65535) :
    s.pool.acquire.2 = .outOfRange ∧ s.out.length < n := by
  rcases C05_acquire_fails_iff n ops s hr ha with h | h
  · exact ⟨h.2.2, by omega⟩
  · have := h.1; omega

/-- **C05, all objects come back.** When every handle is released, a live pool again has all its objects
available (none was destroyed), each exactly once. -/
theorem C05_all_available_again (n : Nat) (hn : n ≤ 65535) (ops : List Op) (s : Sys)
    (hr : (Sys.init n).run ops = some s) (ha : s.pool.alive = true) (hout : s.out = []) :
    s.pool.stack.Perm (List.range n) ∧ s.pool.deleted = [] := by
  have h := sysInv_run (sysInv_init n) hr
  have hp := h.perm
  obtain ⟨hd, -, hh⟩ := h.alive ha
  rw [hout, hd, hh, List.drop_eq_nil_of_le (by simpa using hn)] at hp
  exact ⟨by simpa using hp, hd⟩

/-- **C05, destruction.** After the pool is destroyed and all handles are released, every object has been
deleted exactly once, whatever the order of releases and destruction, whatever the size. -/
theorem C05_each_object_freed_once (n : Nat) (ops : List Op) (s : Sys)
    (hr : (Sys.init n).run ops = some s) (ha : s.pool.alive = false) (hout : s.out = []) :
    s.pool.deleted.Perm (List.range n) := by
  have h := sysInv_run (sysInv_init n) hr
  have hp := h.perm
  rw [hout, (h.dead ha).1, (h.dead ha).2] at hp
  simpa using hp

/-- non-vacuity: exhaust a pool of two, fail once, destroy with one object out, release it -/
example : ∃ s, (Sys.init 2).run [.acquire, .acquire, .acquire, .release 0, .destroy, .release 1] = some s ∧
    s.pool.fails = 1 ∧ s.out = [] ∧ s.pool.alive = false ∧ s.pool.deleted = [1, 0] :=
  ⟨_, rfl, rfl, rfl, rfl, rfl⟩

/-- **C55 (negation witness).** The finalizer function is not run for every object: an object that is out when
the pool is destroyed is deleted without being finalized. -/
theorem C55_finalizer_skipped :
    ∃ ops s, (Sys.init 1).run ops = some s ∧ s.pool.deleted = [0] ∧ s.pool.finalized = [] :=
  ⟨[.acquire, .destroy, .release 0], _, rfl, rfl, rfl⟩

/-- **C55, what does hold.** If the pool is destroyed when no object is out, every object is finalized exactly
once.
Missing: objects that are out, where it fails (`C55_finalizer_skipped`). -/
theorem C55_all_finalized_if_all_returned_partial (n : Nat) (hn : n ≤ 65535) (ops : List Op) (s s' : Sys)
    (hr : (Sys.init n).run ops = some s) (ha : s.pool.alive = true) (hout : s.out = [])
    (hd : s.step .destroy = some s') : s'.pool.finalized.Perm (List.range n) := by
  have h := sysInv_run (sysInv_init n) hr
  have hp := (C05_all_available_again n hn ops s hr ha hout).1
  simp only [Sys.step, ha, if_true, Option.some.injEq] at hd
  subst hd
  simp only [Pool.destroy, (h.alive ha).2.1, List.append_nil]
  exact (List.reverse_perm _).trans hp

theorem dead_run {s s' : Sys} {ops : List Op} (hd : s.pool.alive = false) (hr : s.run ops = some s') :
    s'.pool.finalized = s.pool.finalized ∧ s'.pool.alive = false := by
  induction ops generalizing s with
  | nil => simp only [Sys.run, Option.some.injEq] at hr; subst hr; exact ⟨rfl, hd⟩
  | cons op rest ih =>
    simp only [Sys.run] at hr
    cases hs : s.step op with
    | none => simp [hs] at hr
    | some s1 =>
      simp only [hs] at hr
      cases op with
      | acquire => simp [Sys.step, hd] at hs
      | destroy => simp [Sys.step, hd] at hs
      | release o =>
        simp only [Sys.step] at hs
        split at hs
        · simp only [Option.some.injEq] at hs
          subst hs
          have := ih (s := { pool := s.pool.release o, out := s.out.erase o }) (by simp [Pool.release, hd]) hr
          simpa [Pool.release, hd] using this
        · cases hs

/-- **C55, exactly.**  Whatever happened before and happens after: the objects finalized are those that were in the pool when it was destroyed, each
once; every object that was out then is never finalized, although it is deleted when it is released.
Missing: the finalizer for the objects that were out, where the property fails. -/
theorem C55_finalized_exactly_partial (n : Nat) (hn : n ≤ 65535) (pre post : List Op) (s s' s'' : Sys) (hr : (Sys.init n).run pre = some s)
    (hd : s.step .destroy = some s') (hp : s'.run post = some s'') :
    s''.pool.finalized.Nodup ∧ ∀ o, o ∈ s''.pool.finalized ↔ o < n ∧ o ∉ s.out := by
  have h := sysInv_run (sysInv_init n) hr
  have ha : s.pool.alive = true := by
    cases hb : s.pool.alive with
    | true => rfl
    | false => simp [Sys.step, hb] at hd
  obtain ⟨h1, h2, h3⟩ := h.alive ha
  simp only [Sys.step, ha, if_true, Option.some.injEq] at hd
  have hf : s''.pool.finalized = s.pool.stack.reverse := by
    rw [(dead_run (by rw [← hd]; rfl) hp).1, ← hd]
    simp [Pool.destroy, h2]
  have hh : s.pool.hidden = [] := by rw [h3]; simp; omega
  have hperm := h.perm
  rw [h1, hh] at hperm
  simp only [List.append_nil] at hperm
  have hnd := hperm.nodup_iff.mpr List.nodup_range
  refine ⟨by rw [hf]; exact (List.reverse_perm _).nodup_iff.mpr (List.nodup_append.mp hnd).1, ?_⟩
  intro o
  rw [hf, List.mem_reverse]
  have hm : o ∈ s.pool.stack ++ s.out ↔ o < n := by rw [hperm.mem_iff]; simp
  constructor
  · intro ho
    exact ⟨hm.mp (by simp [ho]), fun ho' => (List.nodup_append.mp hnd).2.2 o ho o ho' rfl⟩
  · rintro ⟨hl, ho⟩
    exact (List.mem_append.mp (hm.mpr hl)).resolve_right ho

/-- Three objects, one out when the pool is destroyed and released later. -/
theorem C55_example : ∃ s, (Sys.init 3).run [.acquire, .acquire, .release 0, .destroy, .release 1] = some s ∧ s.pool.finalized = [2, 0] ∧
    s.pool.deleted = [1, 2, 0] := ⟨_, rfl, by decide⟩

/-! ### C06: publisher -/

variable {T : Type}

/-- **C06, isolation.** An event that a subscriber still holds is never touched: no publication changes its
content and no publication reuses its object. -/
theorem C06_retained_events_untouched (c : Cfg T) (ops : List (POp T)) (s s' : Pub T)
    (hr : (Pub.init c).run c ops = some s) (op : POp T) (r : Option Nat)
    (hs : s.step c op = some (s', r)) (o : Nat) (ho : o ∈ s.live) :
    s'.content o = s.content o ∧ r ≠ some o := by
  have h := pubInv_run (pubInv_init c) hr
  have hfresh : ∀ (s1 : Pub T) v, s1.live = s.live → s1.next = s.next → s1.content = s.content →
      (s1.fresh v).1.content o = s.content o ∧ some (s1.fresh v).2 ≠ some o := by
    intro s1 v e1 e2 e3
    have hlt := h.lt o ho
    have : o ≠ s1.next := by omega
    simp only [Pub.fresh, upd_other _ _ this, e3, true_and, ne_eq, Option.some.injEq]
    exact fun e => this e.symm
  have htake : ∀ (p : Pool) o' rest, s.pool = some p → p.stack = o' :: rest → o ≠ o' := by
    intro p o' rest hp hst e
    subst e
    obtain ⟨_, _, h3⟩ := h.pool p hp
    have hnd := h3.nodup_iff.mpr List.nodup_range
    rw [hst] at hnd h3
    have hlt : o < c.poolSize := by
      have : o ∈ List.range (min c.poolSize 65535) := h3.mem_iff.mp (by simp)
      simp at this; omega
    simp only [List.cons_append, List.nodup_cons, List.mem_append, not_or] at hnd
    exact hnd.1.2 (by simp [ho, hlt])
  cases op with
  | publish e =>
    simp only [Pub.step, Option.some.injEq, Prod.mk.injEq] at hs
    obtain ⟨rfl, rfl⟩ := hs
    unfold Pub.publish
    cases hp : s.pool with
    | none =>
      simp only
      cases c.cloner <;> exact hfresh _ _ rfl rfl rfl
    | some p =>
      cases hst : p.stack with
      | nil => simp only [Pool.acquire, hst]; exact hfresh _ _ rfl rfl rfl
      | cons o' rest =>
        have := htake p o' rest hp hst
        simp only [Pool.acquire, hst, upd_other _ _ this, true_and, ne_eq, Option.some.injEq]
        exact fun e => this e.symm
  | process f =>
    simp only [Pub.step, Option.some.injEq, Prod.mk.injEq] at hs
    obtain ⟨rfl, rfl⟩ := hs
    unfold Pub.process
    cases hp : s.pool with
    | none => exact hfresh _ _ rfl rfl rfl
    | some p =>
      cases hst : p.stack with
      | nil => simp only [Pool.acquire, hst]; exact hfresh _ _ rfl rfl rfl
      | cons o' rest =>
        have := htake p o' rest hp hst
        simp only [Pool.acquire, hst, upd_other _ _ this, true_and, ne_eq, Option.some.injEq]
        exact fun e => this e.symm
  | drop o' =>
    simp only [Pub.step] at hs
    split at hs
    · simp only [Option.some.injEq, Prod.mk.injEq] at hs
      obtain ⟨rfl, rfl⟩ := hs
      simp [Pub.drop]
    · simp at hs

/-- **C06, published value.** If the cloner overwrites its destination (in particular the default copy),
`publish e` hands over an event with exactly the cloned content, whatever happened before.
Missing: cloners that keep part of the destination (C06_recycled_content_leaks). -/
theorem C06_publish_value_partial (c : Cfg T) (ops : List (POp T)) (s s' : Pub T)
    (_hr : (Pub.init c).run c ops = some s) (e : T) (o : Nat) (d : T)
    (hcl : ∀ cl, c.cloner = some cl → ∀ e d d', cl e d = cl e d')
    (hs : s.step c (.publish e) = some (s', some o)) :
    s'.content o = (match c.cloner with | none => e | some cl => cl e d) := by
  have hc : ∀ d', c.clone e d' = (match c.cloner with | none => e | some cl => cl e d) := by
    intro d'
    unfold Cfg.clone
    cases hcc : c.cloner with
    | none => rfl
    | some cl => exact hcl cl hcc e d' d
  simp only [Pub.step, Option.some.injEq, Prod.mk.injEq] at hs
  obtain ⟨rfl, rfl⟩ := hs
  unfold Pub.publish
  cases hp : s.pool with
  | none =>
    cases hcc : c.cloner with
    | none => simp [Pub.fresh]
    | some cl => simpa [Pub.fresh] using hcl cl hcc e _ d
  | some p =>
    cases hst : p.stack with
    | nil => simp only [Pool.acquire, hst, Pub.fresh, upd_same]; exact hc _
    | cons o' rest => simp only [Pool.acquire, hst, upd_same]; exact hc _

/-- **C06, exact content of a published event.** `publish e` hands over the result of cloning `e` into: the
previous content of the object if it is a recycled pooled object, an initialised default object if it is a
new one (all pooled objects are held by subscribers, or there is no pool and a cloner was given).  Without a
cloner the event is `e` itself. -/
theorem C06_publish_exact_content (c : Cfg T) (ops : List (POp T)) (s s' : Pub T)
    (hr : (Pub.init c).run c ops = some s) (e : T) (o : Nat)
    (hs : s.step c (.publish e) = some (s', some o)) :
    s'.content o = (match c.cloner with
      | none => e
      | some cl => cl e (if o < c.poolSize then s.content o else
          match c.initF with | none => c.dflt | some i => i c.dflt)) := by
  have h := pubInv_run (pubInv_init c) hr
  have hn := h.next
  simp only [Pub.step, Option.some.injEq, Prod.mk.injEq] at hs
  obtain ⟨rfl, rfl⟩ := hs
  have hi : (match c.initF with | none => c.dflt | some i => i c.dflt) = c.initFun c.dflt := by
    unfold Cfg.initFun; cases c.initF <;> rfl
  rw [hi]
  unfold Pub.publish
  cases hp : s.pool with
  | none =>
    have hlt : ¬ s.next < c.poolSize := by omega
    cases hcc : c.cloner with
    | none => simp [Pub.fresh]
    | some cl => simp [Pub.fresh, hlt]
  | some p =>
    cases hst : p.stack with
    | nil =>
      have hlt : ¬ s.next < c.poolSize := by omega
      cases hcc : c.cloner with
      | none => simp [Pool.acquire, hst, Pub.fresh, Cfg.clone, hcc]
      | some cl => simp [Pool.acquire, hst, Pub.fresh, Cfg.clone, hcc, hlt]
    | cons o' rest =>
      have hlt : o' < c.poolSize := by
        obtain ⟨_, _, h3⟩ := h.pool p hp
        have : o' ∈ List.range (min c.poolSize 65535) := h3.mem_iff.mp (by simp [hst])
        simp at this; omega
      cases hcc : c.cloner with
      | none => simp [Pool.acquire, hst, Cfg.clone, hcc]
      | some cl => simp [Pool.acquire, hst, Cfg.clone, hcc, hlt]

/-- **C06, exact content of a processed event.** `processAndPublish f` hands over `f` applied to the
initialised object: the initializer runs on the previous content of a recycled pooled object, or on a new
default object. -/
theorem C06_process_exact_content (c : Cfg T) (ops : List (POp T)) (s s' : Pub T)
    (hr : (Pub.init c).run c ops = some s) (f : T → T) (o : Nat)
    (hs : s.step c (.process f) = some (s', some o)) :
    s'.content o = f ((match c.initF with | none => id | some i => i)
      (if o < c.poolSize then s.content o else c.dflt)) := by
  have h := pubInv_run (pubInv_init c) hr
  have hn := h.next
  simp only [Pub.step, Option.some.injEq, Prod.mk.injEq] at hs
  obtain ⟨rfl, rfl⟩ := hs
  have hi : (match c.initF with | none => id | some i => i) = c.initFun := by
    unfold Cfg.initFun; cases c.initF <;> rfl
  rw [hi]
  unfold Pub.process
  cases hp : s.pool with
  | none =>
    have hlt : ¬ s.next < c.poolSize := by omega
    simp [Pub.fresh, hlt]
  | some p =>
    cases hst : p.stack with
    | nil =>
      have hlt : ¬ s.next < c.poolSize := by omega
      simp [Pool.acquire, hst, Pub.fresh, hlt]
    | cons o' rest =>
      have hlt : o' < c.poolSize := by
        obtain ⟨_, _, h3⟩ := h.pool p hp
        have : o' ∈ List.range (min c.poolSize 65535) := h3.mem_iff.mp (by simp [hst])
        simp at this; omega
      simp [Pool.acquire, hst, hlt]

/-- non-vacuity: a recycled object, an initializer that resets only the first component -/
example : ∃ s s', (Pub.init (⟨1, (0, 0), some fun d => (5, d.2), none⟩ : Cfg (Nat × Nat))).run
      ⟨1, (0, 0), some fun d => (5, d.2), none⟩ [.publish (1, 2), .drop 0] = some s ∧
    s.step ⟨1, (0, 0), some fun d => (5, d.2), none⟩ (.process fun d => (d.1 + 1, d.2 + 1)) =
      some (s', some 0) ∧ s'.content 0 = (6, 3) :=
  ⟨_, _, rfl, rfl, rfl⟩

/-- **C06, recycled content (negation witness).** With a cloner that copies only part of the event, the
published event depends on earlier events: a recycled object is not initialised again before cloning.
Here events are pairs, the cloner copies the first component and adds to the second. -/
theorem C06_recycled_content_leaks :
    ∃ (c : Cfg (Nat × Nat)) (s s' : Pub (Nat × Nat)) (o : Nat),
      (Pub.init c).run c [.publish (1, 0), .drop 0] = some s ∧
      s.step c (.publish (2, 0)) = some (s', some o) ∧
      s'.content o ≠ c.clone (2, 0) (c.initFun c.dflt) :=
  ⟨⟨1, (0, 0), some fun _ => (0, 0), some fun e d => (e.1, d.2 + 1)⟩, _, _, _, rfl, rfl, by
    simp [Pub.publish, Pub.init, Pool.init, Pool.acquire, Cfg.clone, Cfg.initFun, Pub.drop,
      Pool.release]⟩

/-- **C06, allocation count.** `totalEventAllocations` is the pool size plus the number of events created
outside the pool (all objects numbered from `poolSize` on), and an event is created outside the pool only if
there is no pool or all its objects (the first 65535 if there are more) are still held by subscribers. -/
theorem C06_allocations_exact (c : Cfg T) (ops : List (POp T)) (s s' : Pub T)
    (hr : (Pub.init c).run c ops = some s) (op : POp T) (r : Option Nat)
    (hs : s.step c op = some (s', r)) :
    (s'.allocs = s.allocs ∨
      (s'.allocs = s.allocs + 1 ∧ r = some s.allocs ∧
        ∀ o, o < min c.poolSize 65535 → o ∈ s.live)) := by
  have h := pubInv_run (pubInv_init c) hr
  have hall := h.allocs
  have hempty : ∀ p : Pool, s.pool = some p → p.stack = [] → ∀ o, o < min c.poolSize 65535 → o ∈ s.live := by
    intro p hp hst o ho
    obtain ⟨_, _, h3⟩ := h.pool p hp
    rw [hst, List.nil_append] at h3
    have : o ∈ s.live.filter (· < c.poolSize) := h3.mem_iff.mpr (by simp; omega)
    exact (List.mem_filter.mp this).1
  have hnone : s.pool = none → ∀ o, o < min c.poolSize 65535 → o ∈ s.live := by
    intro hp o ho
    have := h.none.mp hp
    omega
  cases op with
  | publish e =>
    simp only [Pub.step, Option.some.injEq, Prod.mk.injEq] at hs
    obtain ⟨rfl, rfl⟩ := hs
    unfold Pub.publish
    cases hp : s.pool with
    | none =>
      right
      cases c.cloner <;> exact ⟨rfl, by simp [Pub.fresh, hall], hnone hp⟩
    | some p =>
      cases hst : p.stack with
      | nil =>
        right
        simp only [Pool.acquire, hst]
        exact ⟨rfl, by simp [Pub.fresh, hall], hempty p hp hst⟩
      | cons o' rest => left; simp only [Pool.acquire, hst]
  | process f =>
    simp only [Pub.step, Option.some.injEq, Prod.mk.injEq] at hs
    obtain ⟨rfl, rfl⟩ := hs
    unfold Pub.process
    cases hp : s.pool with
    | none => right; exact ⟨rfl, by simp [Pub.fresh, hall], hnone hp⟩
    | some p =>
      cases hst : p.stack with
      | nil =>
        right
        simp only [Pool.acquire, hst]
        exact ⟨rfl, by simp [Pub.fresh, hall], hempty p hp hst⟩
      | cons o' rest => left; simp only [Pool.acquire, hst]
  | drop o =>
    left
    simp only [Pub.step] at hs
    split at hs
    · simp only [Option.some.injEq, Prod.mk.injEq] at hs
      obtain ⟨rfl, rfl⟩ := hs
      rfl
    · simp at hs

/-- **C06, no allocation in steady state.** As long as subscribers never hold all pooled events (or 65535 of them), a pooled
publisher never allocates after construction. -/
theorem C06_no_allocation_when_pool_suffices (c : Cfg T) (_hpos : 0 < c.poolSize)
    (ops : List (POp T)) (s s' : Pub T) (hr : (Pub.init c).run c ops = some s)
    (op : POp T) (r : Option Nat) (hs : s.step c op = some (s', r))
    (hfew : s.live.length < min c.poolSize 65535) : s'.allocs = s.allocs := by
  rcases C06_allocations_exact c ops s s' hr op r hs with h | ⟨_, _, h⟩
  · exact h
  · exfalso
    have : (List.range (min c.poolSize 65535)).length ≤ s.live.length :=
      (List.subperm_of_subset List.nodup_range (by
        intro o ho; exact h o (List.mem_range.mp ho))).length_le
    simp at this
    omega

/-- non-vacuity: pool of one, two publications while the first event is retained -/
example : ∃ s s', (Pub.init (⟨1, 0, none, none⟩ : Cfg Nat)).run ⟨1, 0, none, none⟩ [.publish 7] = some s ∧
    s.live = [0] ∧ s.step ⟨1, 0, none, none⟩ (.publish 8) = some (s', some 1) ∧ s'.content 0 = 7 ∧
    s'.content 1 = 8 ∧ s'.allocs = 2 :=
  ⟨_, _, rfl, rfl, rfl, rfl, rfl, rfl⟩

end Verif.Pool
