import Verif.Lemmas.PubThrow

/-!
C76: exceptions of the user's cloner, initializer and process function in a publisher with an object pool.

Specification: a call takes one event, runs the user's functions on it one after the other (`runAll`); if one throws the caller gets that very
exception and nobody else notices the call; else the event is published with the content the functions left.
-/

namespace Verif.PubThrow
open Verif.Pool

variable {T : Type}

/-- Functions run one after the other on a value, up to the first exception. -/
def runAll : List (T → T × Option Exc) → T → Except Exc T
  | [], v => .ok v
  | f :: fs, v =>
    match (f v).2 with
    | some x => .error x
    | none => runAll fs (f v).1

/-- The outcome of a call agrees with the specification: the published event has the content the functions left, or their exception is thrown. -/
def Agrees (s' : St T) (r : Res) (w : Except Exc T) : Prop :=
  match r with
  | .event o => w = .ok (s'.pub.content o)
  | .threw x => w = .error x

/-- **C76, no event is lost or shared.**  After any history of publications, exceptions and releases: no event is held twice, and every pooled
event the stack can hold is in the pool exactly if nobody holds it. -/
theorem C76_pool_intact (c : Cfg T) {ops : List (Op T)} {s : St T} (hr : (St.init c).run c ops = some s) :
    s.pub.live.Nodup ∧ s.free.Nodup ∧ ∀ o, o < min c.poolSize 65535 → (o ∈ s.free ↔ o ∉ s.pub.live) := by
  have h := inv_run (inv_init c) hr
  refine ⟨h.nodup, ?_, ?_⟩
  · cases hp : s.pub.pool with
    | none => simp [St.free, hp]
    | some p =>
      have := (h.pool p hp).2.2.nodup_iff.mpr List.nodup_range
      simp only [St.free, hp, Option.map_some, Option.getD_some]
      exact (List.nodup_append.mp this).1
  · intro o ho
    cases hp : s.pub.pool with
    | none =>
      have : c.poolSize = 0 := h.none.mp hp
      omega
    | some p =>
      obtain ⟨-, -, h3⟩ := h.pool p hp
      have hnd := h3.nodup_iff.mpr List.nodup_range
      have hm : o ∈ p.stack ++ s.pub.live.filter (· < c.base.poolSize) := h3.mem_iff.mpr (by simpa [Cfg.base] using ho)
      simp only [St.free, hp, Option.map_some, Option.getD_some]
      have ho' : o < c.poolSize := by omega
      constructor
      · intro h1 h2
        exact (List.nodup_append.mp hnd).2.2 o h1 o (by simp [h2, Cfg.base, ho']) rfl
      · intro h1
        rcases List.mem_append.mp hm with h2 | h2
        · exact h2
        · exact absurd (List.mem_filter.mp h2).1 h1

/-- **C76, isolation of one call.**  After any history, a publication either publishes one event that nobody held before, or throws and leaves the
events others hold and the free events as they were; in both cases no event that others hold changes. -/
theorem C76_publish_isolated (c : Cfg T) {ops : List (Op T)} {s : St T} (hr : (St.init c).run c ops = some s) (e : T) :
    (∀ o ∈ s.pub.live, (s.publish c e).1.pub.content o = s.pub.content o) ∧
    match (s.publish c e).2 with
    | .event o => o ∉ s.pub.live ∧ (s.publish c e).1.pub.live = o :: s.pub.live
    | .threw _ => (s.publish c e).1.pub.live = s.pub.live ∧ (s.publish c e).1.free = s.free := by
  have h := done_publish (inv_run (inv_init c) hr) e
  generalize hq : s.publish c e = q at h
  obtain ⟨s', r⟩ := q
  cases r with
  | event o => exact ⟨h.content, h.other, h.live⟩
  | threw x => exact ⟨h.2.2.2, h.2.1, h.2.2.1⟩

/-- The same for `processAndPublish`. -/
theorem C76_process_isolated (c : Cfg T) {ops : List (Op T)} {s : St T} (hr : (St.init c).run c ops = some s) (f : T → T × Option Exc) :
    (∀ o ∈ s.pub.live, (s.process c f).1.pub.content o = s.pub.content o) ∧
    match (s.process c f).2 with
    | .event o => o ∉ s.pub.live ∧ (s.process c f).1.pub.live = o :: s.pub.live
    | .threw _ => (s.process c f).1.pub.live = s.pub.live ∧ (s.process c f).1.free = s.free := by
  have h := done_process (inv_run (inv_init c) hr) f
  generalize hq : s.process c f = q at h
  obtain ⟨s', r⟩ := q
  cases r with
  | event o => exact ⟨h.content, h.other, h.live⟩
  | threw x => exact ⟨h.2.2.2, h.2.1, h.2.2.1⟩

theorem fill_agrees (c : Cfg T) (s : St T) (f : T → T × Option Exc) (o : Nat) :
    Agrees (s.fill c f o).1 (s.fill c f o).2 (runAll [c.initFun, f] (s.pub.content o)) ∧ (s.fill c f o).1.pub.allocs = s.pub.allocs := by
  unfold St.fill
  simp only [runAll, St.callInit, St.write, upd_same]
  cases h : (c.initFun (s.pub.content o)).2 with
  | some x => simp [Agrees, St.drop]
  | none =>
    cases h' : (f (c.initFun (s.pub.content o)).1).2 with
    | some x => simp [Agrees, St.drop]
    | none => simp [Agrees, upd_same]

/-- **C76, `processAndPublish` reports every exception.**  With the first free event of the pool, or a new default event if there is none, the
initializer and then the user's function run once: the caller gets their first exception, or the event with the content they left is published.
A new event is made only if the pool has no free event. -/
theorem C76_process_outcome (c : Cfg T) (s : St T) (f : T → T × Option Exc) :
    Agrees (s.process c f).1 (s.process c f).2 (runAll [c.initFun, f] ((s.free.head?.map s.pub.content).getD c.dflt)) ∧
    (s.process c f).1.pub.allocs = s.pub.allocs + (if s.free = [] then 1 else 0) := by
  unfold St.process
  cases hp : s.pub.pool with
  | none =>
    have := fill_agrees c (s.make c.dflt).1 f (s.make c.dflt).2
    simpa [St.free, hp, St.make, Pub.fresh, upd_same] using this
  | some p =>
    cases hst : p.stack with
    | nil =>
      have := fill_agrees c (St.make { s with pub := { s.pub with pool := some { p with fails := p.fails + 1 } } } c.dflt).1 f s.pub.next
      simp only [Pool.acquire, hst]
      simpa [St.free, hp, hst, St.make, Pub.fresh, upd_same] using this
    | cons o r =>
      have := fill_agrees c { s with pub := { s.pub with pool := some { p with stack := r }, live := o :: s.pub.live } } f o
      simp only [Pool.acquire, hst]
      simpa [St.free, hp, hst] using this

theorem fresh_agrees (c : Cfg T) (s : St T) (e : T) :
    Agrees (s.freshEvent c e).1 (s.freshEvent c e).2 (runAll [c.initFun, c.clone e] c.dflt) ∧ (s.freshEvent c e).1.pub.allocs = s.pub.allocs + 1 := by
  unfold St.freshEvent
  simp only [runAll, St.callInit, St.callClone, St.write, St.make, Pub.fresh, upd_same]
  cases h : (c.initFun c.dflt).2 with
  | some x => simp [Agrees, St.drop]
  | none =>
    cases h' : (c.clone e (c.initFun c.dflt).1).2 with
    | some x => simp [Agrees, St.drop]
    | none => simp [Agrees, upd_same]

/-- **C76, `publish` reports every exception** (partial).  A free pooled event is cloned into; without a free one a new event is initialised and
cloned into (with neither pool nor cloner it is a copy): the caller gets the first exception, or the event with the content the functions left is
published, and a new event is made only if there is no free one.
Missing: a cloner that throws `std::out_of_range` on a free pooled event (`C76_violation_out_of_range`). -/
theorem C76_publish_outcome_partial (c : Cfg T) (s : St T) (e : T)
    (hc : ∀ o ∈ s.free.head?, (c.clone e (s.pub.content o)).2 ≠ some .outOfRange) :
    Agrees (s.publish c e).1 (s.publish c e).2
      (match s.free with
       | o :: _ => runAll [c.clone e] (s.pub.content o)
       | [] => if s.pub.pool.isNone && c.cloner.isNone then .ok e else runAll [c.initFun, c.clone e] c.dflt) ∧
    (s.publish c e).1.pub.allocs = s.pub.allocs + (if s.free = [] then 1 else 0) := by
  unfold St.publish
  cases hp : s.pub.pool with
  | none =>
    cases hcl : c.cloner with
    | none => simp [St.free, hp, St.make, Pub.fresh, Agrees, upd_same]
    | some cl =>
      have := fresh_agrees c s e
      simpa [St.free, hp] using this
  | some p =>
    cases hst : p.stack with
    | nil =>
      have := fresh_agrees c { s with pub := { s.pub with pool := some { p with fails := p.fails + 1 } } } e
      simp only [Pool.acquire, hst]
      simpa [St.free, hp, hst] using this
    | cons o r =>
      have hc' := hc o (by simp [St.free, hp, hst])
      simp only [Pool.acquire, hst, St.callClone, St.write]
      cases h : (c.clone e (s.pub.content o)).2 with
      | none => simp [St.free, hp, hst, runAll, Agrees, h, upd_same]
      | some x =>
        cases x with
        | outOfRange => exact absurd h hc'
        | other => simp [St.free, hp, hst, runAll, Agrees, h, St.drop]

/-- **C76, one call of each function** (partial): a publication calls the cloner at most once, and no event is initialised again when it comes from
the pool.  Missing: as above. -/
theorem C76_publish_calls_once_partial (c : Cfg T) (s : St T) (e : T)
    (hc : ∀ o ∈ s.free.head?, (c.clone e (s.pub.content o)).2 ≠ some .outOfRange) :
    ∃ k i, (s.publish c e).1.clones = s.clones ++ k ∧ (s.publish c e).1.inits = s.inits ++ i ∧ k.length ≤ 1 ∧ i.length ≤ 1 ∧
      (s.free ≠ [] → i = []) := by
  have fr : ∀ s : St T, ∃ k i, (s.freshEvent c e).1.clones = s.clones ++ k ∧ (s.freshEvent c e).1.inits = s.inits ++ i ∧
      k.length ≤ 1 ∧ i.length ≤ 1 := by
    intro s
    unfold St.freshEvent
    dsimp only
    split
    · exact ⟨[], [_], by simp [St.drop, St.callInit, St.write, St.make], rfl, by simp, by simp⟩
    · split
      · exact ⟨[_], [_], rfl, rfl, by simp, by simp⟩
      · exact ⟨[_], [_], rfl, rfl, by simp, by simp⟩
  unfold St.publish
  cases hp : s.pub.pool with
  | none =>
    dsimp only
    split
    · exact ⟨[], [], by simp [St.make], by simp [St.make], by simp, by simp, by simp⟩
    · obtain ⟨k, i, h1, h2, h3, h4⟩ := fr s
      exact ⟨k, i, h1, h2, h3, h4, by simp [St.free, hp]⟩
  | some p =>
    cases hst : p.stack with
    | nil =>
      simp only [Pool.acquire, hst]
      obtain ⟨k, i, h1, h2, h3, h4⟩ := fr { s with pub := { s.pub with pool := some { p with fails := p.fails + 1 } } }
      exact ⟨k, i, by simpa [hst] using h1, by simpa [hst] using h2, h3, h4, by simp [St.free, hp, hst]⟩
    | cons o r =>
      have hc' := hc o (by simp [St.free, hp, hst])
      simp only [Pool.acquire, hst]
      split
      · exact ⟨[_], [], rfl, by simp [St.callClone, St.write], by simp, by simp, by simp⟩
      · rename_i h; exact absurd h hc'
      · exact ⟨[_], [], rfl, by simp [St.callClone, St.write, St.drop], by simp, by simp, by simp⟩

/-- **C76, violation.**  If the cloner throws `std::out_of_range` on a free pooled event, the publisher takes it for an empty pool: the exception is
dropped, the event given back, a new event is made although the pool has free ones, and the cloner runs a second time if the initializer does not
throw.  The outcome is that of a call on a new event. -/
theorem C76_violation_out_of_range (c : Cfg T) (s : St T) (e : T) {o : Nat} (ho : s.free.head? = some o)
    (hc : (c.clone e (s.pub.content o)).2 = some .outOfRange) (hi : (c.initFun c.dflt).2 = none) :
    (s.publish c e).1.pub.allocs = s.pub.allocs + 1 ∧
    (s.publish c e).1.clones = s.clones ++ [(o, some .outOfRange), (s.pub.next, (c.clone e (c.initFun c.dflt).1).2)] ∧
    Agrees (s.publish c e).1 (s.publish c e).2 (runAll [c.clone e] (c.initFun c.dflt).1) := by
  cases hp : s.pub.pool with
  | none => simp [St.free, hp] at ho
  | some p =>
    cases hst : p.stack with
    | nil => simp [St.free, hp, hst] at ho
    | cons o' r =>
      have : o' = o := by simpa [St.free, hp, hst] using ho
      subst this
      have hq : s.publish c e = ((St.callClone c { s with pub := { s.pub with pool := some { p with stack := r }, live := o' :: s.pub.live } } e o').1.drop
          c o').freshEvent c e := by
        simp only [St.publish, hp, Pool.acquire, hst, St.callClone, St.write, hc]
      rw [hq]
      have ha := fresh_agrees c ((St.callClone c { s with pub := { s.pub with pool := some { p with stack := r }, live := o' :: s.pub.live } } e o').1.drop
          c o') e
      refine ⟨by rw [ha.2]; rfl, ?_, ?_⟩
      · unfold St.freshEvent
        simp only [St.callInit, St.callClone, St.write, St.make, Pub.fresh, upd_same, St.drop, hi]
        cases (c.clone e (c.initFun c.dflt).1).2 <;> simp [hc]
      · have h1 := ha.1
        simpa [runAll, hi] using h1

/-! ### Relation to the publisher without exceptions (C05) -/

/-- User functions that never throw. -/
def lift (c : Pool.Cfg T) : Cfg T :=
  ⟨c.poolSize, c.dflt, c.initF.map fun g d => (g d, none), c.cloner.map fun g e d => (g e d, none)⟩

def liftOp : POp T → Op T
  | .publish e => .publish e
  | .process f => .process fun v => (f v, none)
  | .drop o => .drop o

theorem lift_init (c : Pool.Cfg T) (v : T) : (lift c).initFun v = (c.initFun v, none) := by
  cases h : c.initF <;> simp [lift, Cfg.initFun, Pool.Cfg.initFun, h]

theorem lift_clone (c : Pool.Cfg T) (e v : T) : (lift c).clone e v = (c.clone e v, none) := by
  cases h : c.cloner <;> simp [lift, Cfg.clone, Pool.Cfg.clone, h]

theorem upd_upd (f : Nat → T) (a : Nat) (x y : T) : upd (upd f a x) a y = upd f a y := by
  funext b; simp only [upd]; split <;> rfl

theorem lift_step (c : Pool.Cfg T) (s : St T) (op : POp T) :
    ((s.step (lift c) (liftOp op)).map fun r => (r.1.pub, r.2)) = (s.pub.step c op).map fun r => (r.1, r.2.map Res.event) := by
  cases op with
  | publish e =>
    simp only [liftOp, St.step, Pub.step, St.publish, Pub.publish]
    cases hp : s.pub.pool with
    | none =>
      cases hcl : c.cloner with
      | none => simp [lift, hcl, St.make, Pub.fresh]
      | some cl =>
        have hk : c.clone e (c.initFun c.dflt) = cl e (c.initFun c.dflt) := by simp [Pool.Cfg.clone, hcl]
        have hl : (lift c).cloner = some fun e d => (cl e d, none) := by simp [lift, hcl]
        have hd : (lift c).dflt = c.dflt := rfl
        simp [hl, St.freshEvent, St.callInit, St.callClone, St.write, St.make, Pub.fresh, lift_init, lift_clone, upd_same, upd_upd, hd, hk]
    | some p =>
      have hd : (lift c).dflt = c.dflt := rfl
      cases hst : p.stack with
      | nil => simp [Pool.acquire, hst, St.freshEvent, St.callInit, St.callClone, St.write, St.make, Pub.fresh, lift_init, lift_clone, upd_same, upd_upd, hd]
      | cons o r => simp [Pool.acquire, hst, St.callClone, St.write, lift_clone]
  | process f =>
    have hd : (lift c).dflt = c.dflt := rfl
    simp only [liftOp, St.step, Pub.step, St.process, Pub.process]
    cases hp : s.pub.pool with
    | none => simp [St.fill, St.callInit, St.write, St.make, Pub.fresh, lift_init, upd_same, upd_upd, hd]
    | some p =>
      cases hst : p.stack with
      | nil => simp [Pool.acquire, hst, St.fill, St.callInit, St.write, St.make, Pub.fresh, lift_init, upd_same, upd_upd, hd]
      | cons o r => simp [Pool.acquire, hst, St.fill, St.callInit, St.write, lift_init, upd_same, upd_upd]
  | drop o =>
    simp only [liftOp, St.step, Pub.step]
    split
    · simp [St.drop, Pub.drop, lift]; rfl
    · simp

/-- **C76, conservative.**  With functions that do not throw every history is one of the publisher of C05, with the same events. -/
theorem C76_without_exceptions (c : Pool.Cfg T) (ops : List (POp T)) :
    ((St.init (lift c)).run (lift c) (ops.map liftOp)).map (·.pub) = (Pub.init c).run c ops := by
  have gen : ∀ (ops : List (POp T)) (s : St T), (s.run (lift c) (ops.map liftOp)).map (·.pub) = s.pub.run c ops := by
    intro ops
    induction ops with
    | nil => intro s; rfl
    | cons op rest ih =>
      intro s
      have h := lift_step c s op
      simp only [List.map_cons, St.run, Pub.run]
      cases h1 : s.step (lift c) (liftOp op) with
      | none => rw [h1] at h; cases h2 : s.pub.step c op with
        | none => rfl
        | some q => simp [h2] at h
      | some q =>
        obtain ⟨s1, r1⟩ := q
        rw [h1] at h
        cases h2 : s.pub.step c op with
        | none => simp [h2] at h
        | some q2 =>
          obtain ⟨p2, r2⟩ := q2
          simp only [h2, Option.map_some, Option.some.injEq, Prod.mk.injEq] at h
          simp only [ih s1, h.1]
  rw [gen]
  congr 1
  simp [St.init, Pub.init, lift_init]
  simp [lift]; rfl

/-! ### Concrete cases -/

/-- Events are numbers, two pooled; the initializer clears, the cloner copies even values, and throws `std::out_of_range` on 7 and something else on
other odd values, after writing 99. -/
def exCfg : Cfg Nat :=
  ⟨2, 0, some fun _ => (0, none), some fun e _ => if e % 2 = 0 then (e, none) else if e = 7 then (99, some .outOfRange) else (99, some .other)⟩

/-- A history with publications, an exception and a release: hypotheses of the theorems. -/
theorem C76_example_history : ∃ s, (St.init exCfg).run exCfg [.publish 4, .publish 5, .publish 6, .publish 8, .drop 0] = some s ∧
    s.pub.live = [2, 1] ∧ s.free = [0] ∧ s.pub.allocs = 3 ∧ s.clones = [(0, none), (1, some .other), (1, none), (2, none)] :=
  ⟨_, rfl, by decide +kernel⟩

theorem C76_example_reported : ((St.init exCfg).publish exCfg 5).2 = .threw .other ∧ ((St.init exCfg).publish exCfg 5).1.free = [0, 1] ∧
    ((St.init exCfg).process exCfg fun _ => (3, some .outOfRange)).2 = .threw .outOfRange := by decide +kernel

/-- The cloner of a pooled event throws `std::out_of_range`: it runs twice, a third event is allocated although two are free. -/
theorem C76_violation_example : ((St.init exCfg).publish exCfg 7).1.clones = [(0, some .outOfRange), (2, some .outOfRange)] ∧
    ((St.init exCfg).publish exCfg 7).1.pub.allocs = 3 ∧ ((St.init exCfg).publish exCfg 7).1.free = [0, 1] := by decide +kernel

/-- The exception is swallowed if the second call of the cloner succeeds: this cloner refuses an event that still holds old data. -/
theorem C76_violation_swallowed :
    let c : Cfg Nat := ⟨1, 0, none, some fun e d => if d = 0 then (e, none) else (d, some .outOfRange)⟩
    ∃ s, (St.init c).run c [.publish 4, .drop 0] = some s ∧ (s.publish c 5).2 = .event 1 ∧ s.free = [0] ∧ s.pub.allocs = 1 ∧
      (s.publish c 5).1.pub.allocs = 2 := by
  exact ⟨_, rfl, by decide +kernel⟩

end Verif.PubThrow
