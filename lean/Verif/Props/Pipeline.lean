import Verif.Lemmas.PipeOrder

/-!
Property theorems C69: the whole path of an event (publisher with pool, queue, delivery, listeners).  `Reach c s`: state `s` can be reached by
any interleaving of `c.threads` publisher threads, the delivering thread and listeners that keep at most `c.maxKept` events.
-/

namespace Verif.Pipe
open Verif.Pool

variable {T : Type}

/-- **C69, received values.** Whatever a listener reads, when it is called or later through a `shared_ptr` it kept, is the value that was written
for that publication, however often objects were recycled meanwhile. -/
theorem C69_received_value {c : Cfg T} {s : St T} (h : Reach c s) {k : Nat} {v : T} (hr : (k, v) ∈ s.reads) :
    ∃ call, s.pubs[k]? = some (call, v) ∧ ∃ d, v = (match call with
      | .publish e => (match c.pub.cloner with | none => e | some cl => cl e d)
      | .process f => f ((match c.pub.initF with | none => id | some i => i) d)) := by
  have hi := h.inv
  have h1 := hi.vreads _ hr
  obtain ⟨x, hx, hx2⟩ := Option.map_eq_some_iff.mp h1
  obtain ⟨d, hd⟩ := hi.pubs x (List.mem_of_getElem? hx)
  simp only at hx2
  subst hx2
  refine ⟨x.1, hx, d, ?_⟩
  rw [hd]
  cases x.1 with
  | publish e => simp only [Call.value, Pool.Cfg.clone]; cases c.pub.cloner <;> rfl
  | process f => simp only [Call.value, Pool.Cfg.initFun]; cases c.pub.initF <;> rfl

/-- **C69, received = published.** With the default cloner, what a listener reads of `publish(e)` is `e`. -/
theorem C69_received_is_published {c : Cfg T} {s : St T} (h : Reach c s) (hc : c.pub.cloner = none) {k : Nat} {v e w : T} (hr : (k, v) ∈ s.reads)
    (hp : s.pubs[k]? = some (.publish e, w)) : v = e := by
  obtain ⟨call, h1, d, h2⟩ := C69_received_value h hr
  rw [hp] at h1
  cases h1
  simpa [hc] using h2

/-- **C69, kept events do not change.** As long as somebody holds a `shared_ptr` to an event, its content is the value published. -/
theorem C69_kept_value {c : Cfg T} {s : St T} (h : Reach c s) {o k : Nat} (hk : (o, k) ∈ s.queue ++ s.hand ++ s.kept) :
    ∃ call, s.pubs[k]? = some (call, s.content o) := by
  have hi := h.inv
  have h1 : valOf s k = some (s.content o) := by
    rcases List.mem_append.mp hk with hk | hk
    · rcases List.mem_append.mp hk with hk | hk
      · exact hi.vqueue _ hk
      · exact hi.vhand _ hk
    · exact hi.vkept _ hk
  obtain ⟨x, hx, hx2⟩ := Option.map_eq_some_iff.mp h1
  exact ⟨x.1, by rw [hx, ← hx2]⟩

/-- **C69, exclusive writer.** While a publisher thread writes into an object, nobody else holds it: it is not in the pool, not in the queue, not
being delivered, not kept, and no other thread has it. -/
theorem C69_writer_exclusive {c : Cfg T} {s : St T} (h : Reach c s) {t o : Nat} {call : Call T} (ht : t < c.threads) (hg : s.pc t = .got o call) :
    (∀ p, s.pool = some p → o ∉ p.stack) ∧ (∀ x ∈ s.queue ++ s.hand ++ s.kept, x.1 ≠ o) ∧
      ∀ u, u < c.threads → u ≠ t → (s.pc u).obj ≠ some o := by
  have hi := h.inv
  have h1 := hi.got t o call ht hg
  obtain ⟨a, b, d, e⟩ := hi.sole ht (by rw [hg]; rfl) h1
  refine ⟨fun p hp hm => ?_, fun x hx => ?_, e⟩
  · have := ((hi.pool.some p hp).2.2.2.2 o).mp hm; omega
  · rcases List.mem_append.mp hx with hx | hx
    · rcases List.mem_append.mp hx with hx | hx
      · exact a x hx
      · exact b x hx
    · exact d x hx

/-- **C69, pooled objects.** A pooled object (of the first 65535) is in the pool, once, exactly when nobody holds a `shared_ptr` to it; none is ever lost or deleted. -/
theorem C69_in_pool_iff_unheld {c : Cfg T} {s : St T} (h : Reach c s) {p : Pool} (hp : s.pool = some p) :
    p.stack.Nodup ∧ p.deleted = [] ∧ ∀ o, o < min c.pub.poolSize 65535 → (o ∈ p.stack ↔
      (∀ x ∈ s.queue ++ s.hand ++ s.kept, x.1 ≠ o) ∧ ∀ t, t < c.threads → (s.pc t).obj ≠ some o) := by
  have hi := h.inv
  obtain ⟨h1, h2, h3, h4, h5⟩ := hi.pool.some p hp
  refine ⟨h4, h3, fun o ho => ?_⟩
  rw [h5 o]
  constructor
  · rintro ⟨_, h0⟩
    refine ⟨fun x hx e => ?_, fun t ht e => ?_⟩
    · subst e
      rcases List.mem_append.mp hx with hx | hx
      · rcases List.mem_append.mp hx with hx | hx
        · have := hi.queue_pos hx; omega
        · have := hi.hand_pos hx; omega
      · have := hi.kept_pos hx; omega
    · have := hi.pc_pos ht e; omega
  · rintro ⟨ha, hb⟩
    refine ⟨ho, ?_⟩
    rw [hi.cnt]
    apply List.count_eq_zero.mpr
    intro hm
    simp only [holders, pubHeld, List.mem_append, List.mem_filterMap, List.mem_range, List.mem_map] at hm
    rcases hm with ((⟨t, ht, e⟩ | ⟨x, hx, e⟩) | ⟨x, hx, e⟩) | ⟨x, hx, e⟩
    · exact hb t ht e
    · exact ha x (by simp [hx]) e
    · exact ha x (by simp [hx]) e
    · exact ha x (by simp [hx]) e

/-- The extra place of the thread that takes events out of a queue before delivering them. -/
def handPlace (p : Policy) : Nat := if p = .refuse then 0 else 1

structure Len (c : Cfg T) (s : St T) : Prop where
  kept : s.kept.length ≤ c.maxKept
  hand : s.hand.length ≤ 1
  queue : (c.policy = .dropOldest → 0 < c.bound) → s.queue.length + s.hand.length ≤ c.bound + handPlace c.policy ∧ s.queue.length ≤ c.bound

theorem Len.step {c : Cfg T} {s s' : St T} {a : Act T} (h : Len c s) (hs : Pipe.step c s a = some s') : Len c s' := by
  cases a with
  | acquire t call =>
    simp only [Pipe.step] at hs
    (repeat' split at hs) <;> first | cases hs | skip
    all_goals exact ⟨h.kept, h.hand, h.queue⟩
  | write t =>
    simp only [Pipe.step] at hs
    (repeat' split at hs) <;> first | cases hs | skip
    exact ⟨h.kept, h.hand, h.queue⟩
  | push t =>
    simp only [Pipe.step] at hs
    (repeat' split at hs) <;> first | cases hs | skip
    rename_i hroom
    refine ⟨h.kept, h.hand, fun hb => ?_⟩
    have h1 := h.hand
    have := h.queue hb
    show List.length (s.queue ++ [_]) + _ ≤ _ ∧ List.length (s.queue ++ [_]) ≤ _
    simp only [List.length_append, List.length_singleton]
    simp only [room] at hroom
    split at hroom
    · rename_i hp; simp only [decide_eq_true_eq] at hroom; simp only [handPlace, hp]; simp; omega
    · rename_i hp
      have := hb hp
      simp only [decide_eq_true_eq] at hroom; simp only [handPlace, hp]; simp; omega
    · rename_i hp; simp only [decide_eq_true_eq] at hroom; simp only [handPlace, hp]; simp; omega
  | dropOld t =>
    simp only [Pipe.step] at hs
    (repeat' split at hs) <;> first | cases hs | skip
    rename_i hq
    refine ⟨h.kept, h.hand, fun hb => ?_⟩
    have := h.queue hb
    rw [hq, List.length_cons] at this
    show List.length _ + List.length s.hand ≤ _ ∧ List.length _ ≤ _
    constructor
    · exact Nat.le_trans (by show _ ≤ _; exact Nat.add_le_add_right (Nat.le_succ _) _) this.1
    · exact Nat.le_trans (Nat.le_succ _) this.2
  | refuse t =>
    simp only [Pipe.step] at hs
    (repeat' split at hs) <;> first | cases hs | skip
    exact ⟨h.kept, h.hand, h.queue⟩
  | finish t =>
    simp only [Pipe.step] at hs
    (repeat' split at hs) <;> first | cases hs | skip
    exact ⟨h.kept, h.hand, h.queue⟩
  | take =>
    simp only [Pipe.step] at hs
    (repeat' split at hs) <;> first | cases hs | skip
    rename_i y r hh hq
    refine ⟨h.kept, Nat.le_refl _, fun hb => ?_⟩
    have := h.queue hb
    rw [hq, hh] at this
    simp only [List.length_cons, List.length_nil] at this
    show r.length + 1 ≤ _ ∧ r.length ≤ _
    omega
  | read =>
    simp only [Pipe.step] at hs
    (repeat' split at hs) <;> first | cases hs | skip
    exact ⟨h.kept, h.hand, h.queue⟩
  | keep =>
    simp only [Pipe.step] at hs
    (repeat' split at hs) <;> first | cases hs | skip
    rename_i hlt
    refine ⟨?_, h.hand, h.queue⟩
    show List.length (s.kept ++ [_]) ≤ _
    simp only [List.length_append, List.length_singleton]; omega
  | readKept i =>
    simp only [Pipe.step] at hs
    (repeat' split at hs) <;> first | cases hs | skip
    exact ⟨h.kept, h.hand, h.queue⟩
  | dropKept i =>
    simp only [Pipe.step] at hs
    (repeat' split at hs) <;> first | cases hs | skip
    refine ⟨?_, h.hand, h.queue⟩
    have := h.kept
    show List.length (s.kept.eraseIdx i) ≤ _
    have := List.length_eraseIdx_le s.kept i
    omega
  | release =>
    simp only [Pipe.step] at hs
    (repeat' split at hs) <;> first | cases hs | skip
    rename_i o k r hh
    have h1 := h.hand
    rw [hh, List.length_cons] at h1
    refine ⟨h.kept, by show r.length ≤ 1; omega, fun hb => ?_⟩
    have := h.queue hb
    rw [hh, List.length_cons] at this
    show s.queue.length + r.length ≤ _ ∧ s.queue.length ≤ _
    omega

theorem Reach.len {c : Cfg T} {s : St T} (h : Reach c s) : Len c s := by
  induction h with
  | init => exact ⟨Nat.zero_le _, Nat.zero_le _, fun _ => ⟨Nat.zero_le _, Nat.zero_le _⟩⟩
  | step _ hs ih => exact ih.step hs

/-- **C69, bounded queue.** A queue with a bound never holds more events than the bound, and never more than one event is being delivered. -/
theorem C69_queue_bounded {c : Cfg T} {s : St T} (h : Reach c s) (hb : c.policy = .dropOldest → 0 < c.bound) :
    s.queue.length ≤ c.bound ∧ s.hand.length ≤ 1 ∧ (c.policy = .refuse → s.queue.length + s.hand.length ≤ c.bound) := by
  refine ⟨(h.len.queue hb).2, h.len.hand, fun hp => ?_⟩
  have := (h.len.queue hb).1
  simpa [handPlace, hp] using this

/-- An idle thread finds the pool empty only if the queue, the delivering thread, the listeners and the other threads hold all pooled objects. -/
theorem empty_pool {c : Cfg T} {s : St T} (h : Reach c s) (hb : c.policy = .dropOldest → 0 < c.bound) {t : Nat} (ht : t < c.threads)
    (hidle : s.pc t = .idle) {p : Pool} (hp : s.pool = some p) (he : p.stack = []) :
    min c.pub.poolSize 65535 < c.bound + handPlace c.policy + c.threads + c.maxKept := by
  have hi := h.inv
  have hsub : List.range (min c.pub.poolSize 65535) ⊆ holders c s := by
    intro o ho
    have ho := List.mem_range.mp ho
    have : ¬ s.rc o = 0 := fun h0 => by
      have := ((hi.pool.some p hp).2.2.2.2 o).mpr ⟨ho, h0⟩
      rw [he] at this; cases this
    rw [hi.cnt] at this
    exact List.count_pos_iff.mp (by omega)
  have hl := (List.subperm_of_subset List.nodup_range hsub).length_le
  have h1 := pubHeld_length_lt ht hidle
  have h2 := h.len.queue hb
  have h3 := h.len.kept
  simp only [List.length_range, holders, List.length_append, List.length_map] at hl
  omega

/-- **C69, no allocation.** If the pool has (among the first 65535, the others are never used) an object for every place of the queue, for the event being delivered (in the ring of the event loop it
still counts as queued), for every publisher thread and for every event that listeners keep, then the publisher never allocates after construction. -/
theorem C69_no_allocation {c : Cfg T} {s : St T} (h : Reach c s) (hb : c.policy = .dropOldest → 0 < c.bound)
    (hn : c.bound + (if c.policy = .refuse then 0 else 1) + c.threads + c.maxKept ≤ min c.pub.poolSize 65535) : s.allocs = c.pub.poolSize := by
  induction h with
  | init => rfl
  | @step s s' a h hs ih =>
    cases a with
    | acquire t call =>
      simp only [Pipe.step] at hs
      split at hs
      · rename_i ht
        split at hs
        · rename_i hidle
          split at hs
          · rename_i p hp
            split at hs
            · simp only [Option.some.injEq] at hs; subst hs; exact ih
            · rename_i p' ha
              exfalso
              simp only [Pool.acquire] at ha
              split at ha
              · cases ha
              · rename_i hst
                have := empty_pool h hb ht hidle hp hst
                simp only [handPlace] at this
                omega
          · rename_i hp
            have := h.inv.pool.none.mp hp
            omega
        · cases hs
      · cases hs
    | _ =>
      simp only [Pipe.step] at hs
      (repeat' split at hs) <;> first | cases hs | skip
      all_goals exact ih

/-! ### The pool size is exact -/

/-- Is there room in state with these lengths? -/
theorem room_of {c : Cfg T} {s s' : St T} (hq : s'.queue.length = s.queue.length) (hh : s'.hand.length = s.hand.length) : room c s' = room c s := by
  simp only [room, hq, hh]

theorem unref_pool {c : Cfg T} {s : St T} {o : Nat} (h : s.rc o ≠ 1) : (Pipe.unref c s o).pool = s.pool := by
  simp [Pipe.unref, h]

/-- One complete publication with a pooled object by thread 0. -/
theorem pub_one {c : Cfg T} {s : St T} (hr : Reach c s) (h0 : 0 < c.threads) (hidle : s.pc 0 = .idle) {p : Pool} (hp : s.pool = some p)
    {o : Nat} {r : List Nat} (hst : p.stack = o :: r) (hroom : room c s = true) : ∃ s', Reach c s' ∧ (∀ t, s'.pc t = s.pc t) ∧
      s'.pool = some { p with stack := r } ∧ s'.queue = s.queue ++ [(o, s.pubs.length)] ∧ s'.hand = s.hand ∧ s'.kept = s.kept ∧ s'.allocs = s.allocs := by
  let call : Call T := .process id
  let s1 : St T := { s with pool := some { p with stack := r }, rc := upd s.rc o 1, pc := upd s.pc 0 (.got o call) }
  have e1 : Pipe.step c s (.acquire 0 call) = some s1 := by
    simp [Pipe.step, h0, hidle, hp, Pool.acquire, hst, s1]
  let s2 : St T := { s1 with content := upd s.content o (call.value c (s.content o)), pubs := s.pubs ++ [(call, call.value c (s.content o))],
                             pc := upd s1.pc 0 (.made o s.pubs.length) }
  have e2 : Pipe.step c s1 (.write 0) = some s2 := by
    simp [Pipe.step, h0, s1, s2]
  let s3 : St T := { s2 with queue := s.queue ++ [(o, s.pubs.length)], rc := upd s1.rc o 2, pc := upd s2.pc 0 (.done o),
                             order := s2.order ++ [s.pubs.length] }
  have e3 : Pipe.step c s2 (.push 0) = some s3 := by
    have hr2 : room c s2 = true := (room_of (s := s) (s' := s2) rfl rfl).trans hroom
    have hpc2 : s2.pc 0 = .made o s.pubs.length := by show upd s1.pc 0 _ 0 = _; exact upd_same _ _ _
    have hrc2 : s2.rc o + 1 = 2 := by show upd s.rc o 1 o + 1 = 2; rw [upd_same]
    simp only [Pipe.step, h0, if_true, hpc2, hr2, hrc2]
    rfl
  have e4 : Pipe.step c s3 (.finish 0) = some (Pipe.unref c { s3 with pc := upd s3.pc 0 .idle } o) := by
    simp [Pipe.step, h0, s3]
  refine ⟨_, .step (.step (.step (.step hr e1) e2) e3) e4, ?_, ?_, rfl, rfl, rfl, rfl⟩
  · intro t
    show upd s3.pc 0 .idle t = _
    by_cases e : t = 0
    · subst e; rw [upd_same, hidle]
    · rw [upd_other _ _ e]
      show upd s2.pc 0 _ t = _
      rw [upd_other _ _ e]
      show upd s1.pc 0 _ t = _
      rw [upd_other _ _ e]
      show upd s.pc 0 _ t = _
      rw [upd_other _ _ e]
  · refine (unref_pool ?_).trans rfl
    show upd s1.rc o 2 o ≠ 1
    rw [upd_same]; omega

/-- Thread 0 finds an empty pool and allocates. -/
theorem alloc_one {c : Cfg T} {s : St T} (hr : Reach c s) {t : Nat} (ht : t < c.threads) (hidle : s.pc t = .idle) {p : Pool} (hp : s.pool = some p)
    (hst : p.stack = []) : ∃ s', Reach c s' ∧ s'.allocs = s.allocs + 1 := by
  have e : Pipe.step c s (.acquire t (.process id)) = some (Pipe.fresh c { s with pool := some { p with fails := p.fails + 1 } } t (.process id)) := by
    simp [Pipe.step, ht, hidle, hp, Pool.acquire, hst]
  exact ⟨_, .step hr e, rfl⟩

/-- The stages of the worst case: `j` events kept, `m` events queued, `d` being delivered, `i` threads with an object. -/
structure Stage (c : Cfg T) (s : St T) (j m d i : Nat) : Prop where
  reach : Reach c s
  kept : s.kept.length = j
  queue : s.queue.length = m
  hand : s.hand.length = d
  idle0 : s.pc 0 = .idle
  idle : ∀ t, i < t → s.pc t = .idle
  allocs : s.allocs = c.pub.poolSize
  pool : ∃ p, s.pool = some p ∧ p.stack.length + (j + m + d + i) = min c.pub.poolSize 65535

/-- One more publication, or an allocation. -/
theorem Stage.queueOne {c : Cfg T} {s : St T} {j m d : Nat} (h : Stage c s j m d 0) (h0 : 0 < c.threads) (hroom : room c s = true) :
    (∃ s', Reach c s' ∧ s'.allocs = c.pub.poolSize + 1) ∨ ∃ s', Stage c s' j (m + 1) d 0 := by
  obtain ⟨p, hp, hl⟩ := h.pool
  cases hst : p.stack with
  | nil =>
    obtain ⟨s', hr, ha⟩ := alloc_one h.reach h0 h.idle0 hp hst
    exact .inl ⟨s', hr, by rw [ha, h.allocs]⟩
  | cons o r =>
    obtain ⟨s', hr, h1, h2, h3, h4, h5, h6⟩ := pub_one h.reach h0 h.idle0 hp hst hroom
    refine .inr ⟨s', hr, by rw [h5, h.kept], by rw [h3, List.length_append, h.queue]; rfl, by rw [h4, h.hand], by rw [h1, h.idle0],
      fun t ht => by rw [h1, h.idle t ht], by rw [h6, h.allocs], _, h2, ?_⟩
    rw [hst, List.length_cons] at hl
    show r.length + _ = _
    omega

/-- One more kept event, or an allocation. -/
theorem Stage.keepOne {c : Cfg T} {s : St T} {j : Nat} (h : Stage c s j 0 0 0) (h0 : 0 < c.threads) (hb : 0 < c.bound) (hj : j < c.maxKept) :
    (∃ s', Reach c s' ∧ s'.allocs = c.pub.poolSize + 1) ∨ ∃ s', Stage c s' (j + 1) 0 0 0 := by
  have hroom : room c s = true := by
    simp only [room, h.queue, h.hand]; cases c.policy <;> simp [hb]
  obtain ⟨p, hp, hl⟩ := h.pool
  cases hst : p.stack with
  | nil =>
    obtain ⟨s', hr, ha⟩ := alloc_one h.reach h0 h.idle0 hp hst
    exact .inl ⟨s', hr, by rw [ha, h.allocs]⟩
  | cons o r =>
    obtain ⟨s', hr, h1, h2, h3, h4, h5, h6⟩ := pub_one h.reach h0 h.idle0 hp hst hroom
    have hq : s.queue = [] := List.length_eq_zero_iff.mp h.queue
    have hh : s.hand = [] := List.length_eq_zero_iff.mp h.hand
    rw [hq, List.nil_append] at h3
    rw [hh] at h4
    obtain ⟨k, hk⟩ : ∃ k, (o, s.pubs.length) = (o, k) := ⟨_, rfl⟩
    rw [hk] at h3
    let s1 : St T := { s' with hand := [(o, k)], queue := [], taken := s'.taken ++ [k] }
    have e1 : Pipe.step c s' .take = some s1 := by simp [Pipe.step, h3, h4, s1]
    have hj' : s'.kept.length < c.maxKept := by rw [h5, h.kept]; exact hj
    let s2 : St T := { s1 with kept := s'.kept ++ [(o, k)], rc := upd s'.rc o (s'.rc o + 1) }
    have e2 : Pipe.step c s1 .keep = some s2 := by simp [Pipe.step, s1, s2, hj']
    have e3 : Pipe.step c s2 .release = some (Pipe.unref c { s2 with hand := [] } o) := by simp [Pipe.step, s2, s1]
    have hpos : 0 < s'.rc o := hr.inv.queue_pos (x := (o, k)) (by rw [h3]; simp)
    refine .inr ⟨_, .step (.step (.step hr e1) e2) e3, ?_, rfl, rfl, ?_, ?_, ?_, { p with stack := r }, ?_, ?_⟩
    · show List.length (s'.kept ++ [_]) = _
      rw [List.length_append, h5, h.kept]; rfl
    · show s'.pc 0 = _; rw [h1, h.idle0]
    · intro t ht; show s'.pc t = _; rw [h1, h.idle t ht]
    · show s'.allocs = _; rw [h6, h.allocs]
    · refine (unref_pool ?_).trans h2
      show upd s'.rc o (s'.rc o + 1) o ≠ 1
      rw [upd_same]; omega
    · rw [hst, List.length_cons] at hl
      show r.length + _ = _
      omega

/-- One more thread with an object, or an allocation. -/
theorem Stage.threadOne {c : Cfg T} {s : St T} {j m d i : Nat} (h : Stage c s j m d i) (hi : i + 1 < c.threads) :
    (∃ s', Reach c s' ∧ s'.allocs = c.pub.poolSize + 1) ∨ ∃ s', Stage c s' j m d (i + 1) := by
  obtain ⟨p, hp, hl⟩ := h.pool
  cases hst : p.stack with
  | nil =>
    obtain ⟨s', hr, ha⟩ := alloc_one h.reach hi (h.idle (i + 1) (Nat.lt_succ_self i)) hp hst
    exact .inl ⟨s', hr, by rw [ha, h.allocs]⟩
  | cons o r =>
    have e : Pipe.step c s (.acquire (i + 1) (.process id)) =
        some { s with pool := some { p with stack := r }, rc := upd s.rc o 1, pc := upd s.pc (i + 1) (.got o (.process id)) } := by
      simp [Pipe.step, hi, h.idle (i + 1) (Nat.lt_succ_self i), hp, Pool.acquire, hst]
    refine .inr ⟨_, .step h.reach e, h.kept, h.queue, h.hand, ?_, ?_, h.allocs, _, rfl, ?_⟩
    · exact (upd_other s.pc (.got o (.process id)) (show (0 : Nat) ≠ i + 1 by omega)).trans h.idle0
    · intro t ht; exact (upd_other s.pc (.got o (.process id)) (show t ≠ i + 1 by omega)).trans (h.idle t (by omega))
    · rw [hst, List.length_cons] at hl
      show r.length + _ = _
      omega

/-- **C69, a smaller pool allocates.** If the queue has at least one place and the pool is smaller than in `C69_no_allocation`, some schedule of the
same threads makes the publisher allocate. -/
theorem C69_smaller_pool_allocates {c : Cfg T} (h0 : 0 < c.threads) (hb : 0 < c.bound)
    (hn : min c.pub.poolSize 65535 < c.bound + (if c.policy = .refuse then 0 else 1) + c.threads + c.maxKept) :
    ∃ s, Reach c s ∧ s.allocs = c.pub.poolSize + 1 := by
  by_cases hz : c.pub.poolSize = 0
  · have e : Pipe.step c (St.init c) (.acquire 0 (.process id)) = some (Pipe.fresh c (St.init c) 0 (.process id)) := by
      simp [Pipe.step, h0, St.init, hz]
    exact ⟨_, .step .init e, rfl⟩
  have start : Stage c (St.init c) 0 0 0 0 := by
    refine ⟨.init, rfl, rfl, rfl, rfl, fun _ _ => rfl, rfl, Pool.init c.pub.poolSize, ?_, ?_⟩
    · simp [St.init, hz]
    · simp [Pool.init]
  -- fill the listeners
  have k1 : ∀ j, j ≤ c.maxKept → (∃ s', Reach c s' ∧ s'.allocs = c.pub.poolSize + 1) ∨ ∃ s', Stage c s' j 0 0 0 := by
    intro j
    induction j with
    | zero => intro _; exact .inr ⟨_, start⟩
    | succ j ih =>
      intro hj
      rcases ih (by omega) with h | ⟨s, h⟩
      · exact .inl h
      · exact h.keepOne h0 hb (by omega)
  rcases k1 c.maxKept (Nat.le_refl _) with h | ⟨s1, h1⟩
  · exact h
  -- the delivering thread
  have k2 : (∃ s', Reach c s' ∧ s'.allocs = c.pub.poolSize + 1) ∨ ∃ s', Stage c s' c.maxKept 0 (handPlace c.policy) 0 := by
    by_cases hp : c.policy = .refuse
    · simp only [handPlace, hp]; exact .inr ⟨s1, h1⟩
    · have hroom : room c s1 = true := by
        simp only [room, h1.queue, h1.hand]; cases c.policy <;> simp [hb]
      rcases h1.queueOne h0 hroom with h | ⟨s2, h2⟩
      · exact .inl h
      · refine .inr ?_
        have hh : s2.hand = [] := List.length_eq_zero_iff.mp h2.hand
        obtain ⟨x, hx⟩ : ∃ x, s2.queue = [x] := List.length_eq_one_iff.mp h2.queue
        have e1 : Pipe.step c s2 .take = some { s2 with hand := [x], queue := [], taken := s2.taken ++ [x.2] } := by simp [Pipe.step, hx, hh]
        refine ⟨_, .step h2.reach e1, h2.kept, rfl, ?_, h2.idle0, h2.idle, h2.allocs, ?_⟩
        · simp [handPlace, hp]
        · obtain ⟨p, hp1, hp2⟩ := h2.pool
          refine ⟨p, hp1, ?_⟩
          simp only [handPlace, hp, if_false]; omega
  rcases k2 with h | ⟨s2, h2⟩
  · exact h
  -- the queue
  have k3 : ∀ m, m ≤ c.bound → (∃ s', Reach c s' ∧ s'.allocs = c.pub.poolSize + 1) ∨ ∃ s', Stage c s' c.maxKept m (handPlace c.policy) 0 := by
    intro m
    induction m with
    | zero => intro _; exact .inr ⟨s2, h2⟩
    | succ m ih =>
      intro hm
      rcases ih (by omega) with h | ⟨s, h⟩
      · exact .inl h
      · refine h.queueOne h0 ?_
        have hq := h.queue
        have hh := h.hand
        unfold handPlace at hh
        simp only [room, hq, hh]
        cases hp : c.policy <;> simp <;> omega
  rcases k3 c.bound (Nat.le_refl _) with h | ⟨s3, h3⟩
  · exact h
  -- the other threads
  have k4 : ∀ i, i < c.threads → (∃ s', Reach c s' ∧ s'.allocs = c.pub.poolSize + 1) ∨ ∃ s', Stage c s' c.maxKept c.bound (handPlace c.policy) i := by
    intro i
    induction i with
    | zero => intro _; exact .inr ⟨s3, h3⟩
    | succ i ih =>
      intro hi
      rcases ih (by omega) with h | ⟨s, h⟩
      · exact .inl h
      · exact h.threadOne hi
  rcases k4 (c.threads - 1) (by omega) with h | ⟨s4, h4⟩
  · exact h
  obtain ⟨p, hp, hl⟩ := h4.pool
  have hst : p.stack = [] := by
    apply List.length_eq_zero_iff.mp
    simp only [handPlace] at hl
    omega
  obtain ⟨s', hr, ha⟩ := alloc_one h4.reach h0 h4.idle0 hp hst
  exact ⟨s', hr, by rw [ha, h4.allocs]⟩

/-- **C69, exact pool size.** With a queue of at least one place, the publisher never allocates after construction, whatever the schedule, exactly if
the pool has (among the first 65535) an object for every place of the queue, the event being delivered, every publisher thread and every kept event. -/
theorem C69_pool_size_exact {c : Cfg T} (h0 : 0 < c.threads) (hb : 0 < c.bound) : (∀ s, Reach c s → s.allocs = c.pub.poolSize) ↔
    c.bound + (if c.policy = .refuse then 0 else 1) + c.threads + c.maxKept ≤ min c.pub.poolSize 65535 := by
  constructor
  · intro h
    by_cases hn : c.bound + (if c.policy = .refuse then 0 else 1) + c.threads + c.maxKept ≤ min c.pub.poolSize 65535
    · exact hn
    · obtain ⟨s, hr, ha⟩ := C69_smaller_pool_allocates h0 hb (by omega)
      have := h s hr
      omega
  · exact fun hn s h => C69_no_allocation h (fun _ => hb) hn

/-- **C69, nothing is lost.** When all calls have returned, the queue is empty, nothing is being delivered and listeners keep nothing, all objects
(the first 65535) are back in the pool. -/
theorem C69_all_returned {c : Cfg T} {s : St T} (h : Reach c s) {p : Pool} (hp : s.pool = some p) (hpc : ∀ t, t < c.threads → s.pc t = .idle)
    (hq : s.queue = []) (hh : s.hand = []) (hk : s.kept = []) : p.stack.Perm (List.range (min c.pub.poolSize 65535)) := by
  obtain ⟨h1, h2, h3⟩ := C69_in_pool_iff_unheld h hp
  rw [List.perm_ext_iff_of_nodup h1 List.nodup_range]
  intro o
  rw [List.mem_range]
  constructor
  · intro ho; exact (((h.inv.pool.some p hp).2.2.2.2 o).mp ho).1
  · intro ho
    refine (h3 o ho).mpr ⟨by simp [hq, hh, hk], fun t ht => by rw [hpc t ht]; simp [Pc.obj]⟩

/-- **C69, every event has one fate.** A publication whose event has been written is at each moment in exactly one place: still with the thread that
publishes it, in the queue, taken for delivery (once), or discarded (counted); and what listeners read or keep has been taken for delivery. -/
theorem C69_one_fate {c : Cfg T} {s : St T} (h : Reach c s) :
    (∀ k, k < s.pubs.length ↔ (∃ t o, t < c.threads ∧ s.pc t = .made o k) ∨ k ∈ s.queue.map (·.2) ∨ k ∈ s.taken ∨ k ∈ s.lost) ∧
    (s.queue.map (·.2) ++ (s.taken ++ s.lost)).Nodup ∧
    (∀ t o k, s.pc t = .made o k → k ∉ s.queue.map (·.2) ++ (s.taken ++ s.lost) ∧ ∀ t' o', s.pc t' = .made o' k → t' = t) ∧
    s.discarded = s.lost.length ∧
    (∀ x ∈ s.reads, x.1 ∈ s.taken) ∧ (∀ x ∈ s.hand ++ s.kept, x.2 ∈ s.taken) := by
  have ha := h.acct
  have hg := h.got
  refine ⟨fun k => ?_, ha.nodup, fun t o k hk => ⟨(ha.made t o k hk).1, fun t' o' hk' => ha.inj _ _ _ _ _ hk' hk⟩, ha.nlost, hg.2.2, ?_⟩
  · rw [ha.place k]
    simp only [St.gone, List.mem_append]
    constructor
    · rintro (⟨t, o, ht⟩ | hk)
      · exact Or.inl ⟨t, o, (ha.made t o k ht).2, ht⟩
      · exact Or.inr hk
    · rintro (⟨t, o, _, ht⟩ | hk)
      · exact Or.inl ⟨t, o, ht⟩
      · exact Or.inr hk
  · intro x hx
    rcases List.mem_append.mp hx with hx | hx
    · exact hg.1 x hx
    · exact hg.2.1 x hx

/-- **C69, order of delivery.** With the blocking and the refusing queue, the events are delivered in the order in which they came into the queue, all of
them; the blocking queue loses nothing. -/
theorem C69_fifo {c : Cfg T} {s : St T} (h : Reach c s) (hp : c.policy ≠ .dropOldest) :
    s.order = s.taken ++ s.queue.map (·.2) ∧ (c.policy = .block → s.lost = []) := by
  have ha := h.acct
  obtain ⟨out, h1, h2, _, h4⟩ := ha.ord
  refine ⟨?_, ha.block⟩
  rw [h1, h2, List.filter_eq_self.mpr (h4 hp)]

/-- **C69, order of delivery, discarding queue.** Events leave the queue in the order in which they came; each one that left was either delivered or
counted as discarded (`out` tells which).  With bound 0 nothing is discarded. -/
theorem C69_fifo_discarding {c : Cfg T} {s : St T} (h : Reach c s) (hp : c.policy = .dropOldest) :
    (∃ out : List (Nat × Bool), s.order = out.map (·.1) ++ s.queue.map (·.2) ∧ s.taken = (out.filter (·.2)).map (·.1) ∧
      s.lost = (out.filter (!·.2)).map (·.1)) ∧ (c.bound = 0 → s.lost = [] ∧ s.discarded = 0) := by
  have ha := h.acct
  obtain ⟨out, h1, h2, h3, _⟩ := ha.ord
  refine ⟨⟨out, h1, h2, h3 hp⟩, fun hb => ?_⟩
  have := h.unbounded hp hb
  exact ⟨this, by rw [ha.nlost, this]; rfl⟩

/-- **C69, when events are discarded.** A blocking queue never discards; a discarding queue gives up an event only while it is full (never with bound
0), and then its oldest one; a refusing queue drops only the event being published. -/
theorem C69_discards_only_when_full {c : Cfg T} {s s' : St T} {a : Act T} (hs : step c s a = some s') (hl : s'.lost ≠ s.lost) :
    (c.policy = .dropOldest ∧ 0 < c.bound ∧ c.bound ≤ s.queue.length ∧ s'.lost = s.lost ++ (s.queue.map (·.2)).take 1 ∧
      s'.queue = s.queue.drop 1) ∨
    (c.policy = .refuse ∧ s'.queue = s.queue ∧ ∃ t o k, a = .refuse t ∧ s.pc t = .made o k ∧ s'.lost = s.lost ++ [k]) := by
  cases a <;> simp only [step] at hs
  case dropOld t =>
    split at hs
    · next hc =>
      split at hs
      · next o k r hp hq =>
        cases hs
        left
        exact ⟨hc.2.1, hc.2.2.1, hc.2.2.2, by simp [hq], by simp [hq, unref]⟩
      · cases hs
    · cases hs
  case refuse t =>
    split at hs
    · next hc =>
      split at hs
      · next o k hp =>
        cases hs
        right
        exact ⟨hc.2, rfl, t, o, k, rfl, hp, rfl⟩
      · cases hs
    · cases hs
  all_goals
    exfalso; apply hl
    (repeat' split at hs) <;> first | (cases hs; rfl) | cases hs

/-! ### Concrete cases -/

/-- A queue of one place, two publisher threads, one kept event, a pool of `n` objects. -/
def exCfg (n : Nat) (p : Policy) : Cfg Nat := ⟨⟨n, 0, none, none⟩, 1, p, 2, 1⟩

/-- Non-vacuity of the C69 theorems: two events travel through a pool of one object and a new one while a listener keeps the first. -/
theorem C69_example : (run (exCfg 1 .block) (St.init (exCfg 1 .block)) [.acquire 0 (.publish 7), .write 0, .push 0, .finish 0, .take, .read, .keep, .release,
      .acquire 1 (.publish 8), .write 1, .readKept 0, .dropKept 0, .push 1, .finish 1, .take, .read, .acquire 0 (.process (· + 1))]).map
    (fun s => (s.reads, s.allocs, s.kept, s.hand)) = some ([(0, 7), (0, 7), (1, 8)], 2, [], [(1, 1)]) := by decide +kernel

/-- The object of a dropped event is used again: old events leave a full queue, and the object of the first one carries the third. -/
theorem C69_example_recycled : (run (exCfg 2 .dropOldest) (St.init (exCfg 2 .dropOldest)) [.acquire 0 (.publish 7), .write 0, .push 0, .finish 0,
      .acquire 1 (.publish 8), .write 1, .dropOld 1, .push 1, .finish 1, .acquire 0 (.publish 9), .write 0, .take, .push 0, .read]).map
    (fun s => (s.reads, (s.allocs, s.discarded), s.queue, s.hand)) = some ([(1, 8)], (2, 1), [(0, 2)], [(1, 1)]) := by decide +kernel

/-- One event is delivered, one dropped, one waits; with the refusing queue the second is refused. -/
theorem C69_example_fates : (run (exCfg 2 .dropOldest) (St.init (exCfg 2 .dropOldest)) [.acquire 0 (.publish 7), .write 0, .push 0, .finish 0,
      .acquire 1 (.publish 8), .write 1, .dropOld 1, .push 1, .finish 1, .acquire 0 (.publish 9), .write 0, .take, .push 0, .read]).map
    (fun s => (s.order, s.taken, s.lost, s.queue.map (·.2))) = some ([0, 1, 2], [1], [0], [2]) ∧
    (run (exCfg 2 .refuse) (St.init (exCfg 2 .refuse)) [.acquire 0 (.publish 7), .write 0, .push 0, .finish 0,
      .acquire 1 (.publish 8), .write 1, .refuse 1, .finish 1]).map (fun s => (s.order, s.taken, s.lost, s.queue.map (·.2))) =
      some ([0], [], [1], [0]) := by decide +kernel

/-- A pool as large as the queue is too small: with one publisher thread, nothing kept and a queue of three places, a pool of three objects allocates. -/
theorem C69_example_pool_of_queue_size : ∃ s : St Nat, Reach ⟨⟨3, 0, none, none⟩, 3, .block, 1, 0⟩ s ∧ s.allocs = 4 :=
  C69_smaller_pool_allocates (c := ⟨⟨3, 0, none, none⟩, 3, .block, 1, 0⟩) (by decide) (by decide) (by decide)

end Verif.Pipe
