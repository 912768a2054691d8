import Verif.Lemmas.SyncNet

/-!
Property theorems C73 (networks of synchronous providers).

`net.spec` is the network written in values: for every listener the pairs (node, value) it publishes; `Net.values` does the same with
the commands of the program.  `net.Whole`: cloners and transformations write the whole event (without this a published event depends
on earlier ones: `C06_recycled_content_leaks`).
-/

namespace Verif.SyncNet

open Verif.Pool

variable {T : Type} [DecidableEq T]

/-- The publications of a list of commands, in values. -/
def Net.values (net : Net T) (ps : List (Nat × Cmd T)) : List (Nat × T) := ps.map (fun p => (p.1, p.2.val (net.cfg p.1)))

theorem sim_top {net : Net T} (hw : net.Whole) {s : St T} (hi : Inv net [] s) {ps : List (Nat × Cmd T)}
    (hps : ∀ p ∈ ps, p.2.Whole (net.cfg p.1)) (k : Nat) :
    Sim net (fun n => (stackOf (s.pub n)).length) [] s (exec net k s ps) (trace net.spec k [] (net.values ps)) :=
  sim_exec hw (fun n => (stackOf (s.pub n)).length) k [] [] s ps hps hi (fun _ n => by simp)

theorem sim_some {net : Net T} (hw : net.Whole) {s s' : St T} (hi : Inv net [] s) {ps : List (Nat × Cmd T)}
    (hps : ∀ p ∈ ps, p.2.Whole (net.cfg p.1)) {k : Nat} {b : Bool} (he : exec net k s ps = some (s', b)) :
    ∃ es, trace net.spec k [] (net.values ps) = some (es, b) ∧ Inv net [] s' ∧
      Rel net (fun n => (stackOf (s.pub n)).length) s es s' := by
  have hs := sim_top hw hi hps k
  rw [he] at hs
  cases ht : trace net.spec k [] (net.values ps) with
  | none => rw [ht] at hs; exact hs.elim
  | some r =>
    rw [ht] at hs
    obtain ⟨es, b'⟩ := r
    obtain ⟨rfl, h1, h2⟩ := hs
    exact ⟨es, rfl, h1, h2⟩

theorem Inv.letGo {net : Net T} {s s' : St T} {h : Nat × Nat × T} (hi : Inv net [] s) (he : letGo net s h = some s') : Inv net [] s' := by
  unfold SyncNet.letGo at he
  split at he
  · rename_i hm
    obtain ⟨n, o, v⟩ := h
    simp only [Option.some.injEq] at he
    subst he
    have ho : o ∈ (s.pub n).live := (hi.own n o).mpr (Or.inr ⟨v, hm⟩)
    have hother : ∀ n' o', ¬ (n' = n ∧ o' = o) → ((∃ w, (n', o', w) ∈ s.held.erase (n, o, v)) ↔ ∃ w, (n', o', w) ∈ s.held) := by
      intro n' o' hne
      constructor
      · rintro ⟨w, hw⟩; exact ⟨w, List.mem_of_mem_erase hw⟩
      · rintro ⟨w, hw⟩
        refine ⟨w, (List.mem_erase_of_ne ?_).mpr hw⟩
        intro e
        simp only [Prod.mk.injEq] at e
        exact hne ⟨e.1, e.2.1⟩
    unfold St.done
    dsimp only
    split
    · rename_i hany
      obtain ⟨⟨a, b, w⟩, hm', hh⟩ := List.any_eq_true.mp hany
      simp only [decide_eq_true_eq] at hh
      obtain ⟨rfl, rfl⟩ := hh
      refine ⟨hi.pub, ?_, fun n' o' w hh => hi.held _ _ _ (List.mem_of_mem_erase hh)⟩
      intro n' o'
      rw [hi.own]
      simp only [List.not_mem_nil, false_or]
      by_cases e : n' = a ∧ o' = b
      · obtain ⟨rfl, rfl⟩ := e
        exact ⟨fun _ => ⟨w, hm'⟩, fun _ => ⟨v, hm⟩⟩
      · exact (hother n' o' e).symm
    · rename_i hany
      have hno : ∀ w, (n, o, w) ∉ s.held.erase (n, o, v) := by
        intro w hm'
        exact hany (List.any_eq_true.mpr ⟨_, hm', by simp⟩)
      refine ⟨?_, ?_, ?_⟩
      · intro n'
        by_cases e : n' = n
        · subst e; simpa using drop_inv (hi.pub n') ho
        · simpa [e] using hi.pub n'
      · intro n' o'
        simp only [List.not_mem_nil, false_or]
        by_cases e : n' = n
        · subst e
          simp only [upd_same, Pub.drop]
          rw [(hi.pub n').nodup.mem_erase_iff, hi.own]
          simp only [List.not_mem_nil, false_or]
          by_cases e' : o' = o
          · subst e'
            exact ⟨fun x => absurd rfl x.1, fun ⟨w, hw⟩ => absurd hw (hno w)⟩
          · rw [hother n' o' (fun x => e' x.2)]
            exact ⟨fun x => x.2, fun x => ⟨e', x⟩⟩
        · simp only [upd_other _ _ e, hi.own, List.not_mem_nil, false_or]
          exact (hother n' o' (fun x => e x.1)).symm
      · intro n' o' w hh
        by_cases e : n' = n
        · subst e
          simp only [upd_same, Pub.drop]
          exact hi.held _ _ _ (List.mem_of_mem_erase hh)
        · simp only [upd_other _ _ e]
          exact hi.held _ _ _ (List.mem_of_mem_erase hh)
  · cases he

theorem inv_reach {net : Net T} (hw : net.Whole) {s : St T} (h : Reach net s) : Inv net [] s := by
  induction h with
  | init => exact Inv.start net
  | call _ hps he ih =>
    obtain ⟨_, _, h, _⟩ := sim_some hw ih hps he
    exact h
  | letGo _ he ih => exact ih.letGo he

/-- **C73, synchronous delivery.** Whatever was published and kept before, and whatever the pools contain: publications return
exactly when the cascade of calls that the specification describes is finite (nested to some depth), with an exception exactly when
the specification has one, and the listeners that were called, with the values they saw, in order, are exactly those of the
specification. -/
theorem C73_synchronous {net : Net T} (hw : net.Whole) {s : St T} (h : Reach net s) (ps : List (Nat × Cmd T))
    (hps : ∀ p ∈ ps, p.2.Whole (net.cfg p.1)) (depth : Nat) :
    (exec net depth s ps).map (fun r => (r.1.log, r.2)) =
      (trace net.spec depth [] (net.values ps)).map (fun r => (s.log ++ calls r.1, r.2)) := by
  have hs := sim_top hw (inv_reach hw h) hps depth
  cases hx : exec net depth s ps with
  | none =>
    cases hy : trace net.spec depth [] (net.values ps) with
    | none => rfl
    | some r => rw [hx, hy] at hs; exact hs.elim
  | some q =>
    obtain ⟨s', b⟩ := q
    cases hy : trace net.spec depth [] (net.values ps) with
    | none => rw [hx, hy] at hs; exact hs.elim
    | some r =>
      obtain ⟨es, b'⟩ := r
      rw [hx, hy] at hs
      obtain ⟨rfl, _, hr⟩ := hs
      simp [hr.log]

/-- **C73, kept events.** An event that a listener keeps has the value the listener was called with, for as long as it is kept. -/
theorem C73_kept_untouched {net : Net T} (hw : net.Whole) {s : St T} (h : Reach net s) {n o : Nat} {v : T} (hh : (n, o, v) ∈ s.held) :
    (s.pub n).content o = v := (inv_reach hw h).held n o v hh

/-- **C73, nothing is lost.** Between publications of the program (also after exceptions) the events that exist are exactly the kept ones, and
the pool of every node contains exactly the objects (the first 65535 if there are more) that are not kept, each once. -/
theorem C73_nothing_leaks {net : Net T} (hw : net.Whole) {s : St T} (h : Reach net s) (n : Nat) :
    (∀ o, o ∈ (s.pub n).live ↔ ∃ v, (n, o, v) ∈ s.held) ∧ (stackOf (s.pub n)).Nodup ∧
    ∀ o, o ∈ stackOf (s.pub n) ↔ o < min (net.cfg n).poolSize 65535 ∧ ¬ ∃ v, (n, o, v) ∈ s.held := by
  have hi := inv_reach hw h
  have ho : ∀ o, o ∈ (s.pub n).live ↔ ∃ v, (n, o, v) ∈ s.held := fun o => by simpa using hi.own n o
  refine ⟨ho, ?_⟩
  cases hp : (s.pub n).pool with
  | none =>
    have h0 := (hi.pub n).none.mp hp
    have hs0 : stackOf (s.pub n) = [] := by simp [stackOf, hp]
    rw [hs0]
    refine ⟨List.nodup_nil, fun o => ?_⟩
    simp [h0]
  | some p =>
    obtain ⟨h1, h2, h3⟩ := (hi.pub n).pool p hp
    have hs0 : stackOf (s.pub n) = p.stack := by simp [stackOf, hp]
    rw [hs0]
    have hnd := h3.nodup_iff.mpr List.nodup_range
    rw [List.nodup_append] at hnd
    refine ⟨hnd.1, fun o => ?_⟩
    rw [← ho]
    have hm : o ∈ p.stack ∨ (o ∈ (s.pub n).live ∧ o < (net.cfg n).poolSize) ↔ o < min (net.cfg n).poolSize 65535 := by
      have := h3.mem_iff (a := o)
      simpa using this
    constructor
    · intro hx
      refine ⟨hm.mp (Or.inl hx), fun hl => ?_⟩
      have hlt : o < (net.cfg n).poolSize := by have := hm.mp (Or.inl hx); omega
      exact hnd.2.2 o hx o (by simp [hl, hlt]) rfl
    · rintro ⟨hlt, hnl⟩
      rcases hm.mpr hlt with hx | hx
      · exact hx
      · exact absurd hx.1 hnl

/-- **C73, the pools are as before.** If no listener keeps events, then after publications have returned, with or without an exception,
every pool has the same objects in the same order as before, and the only memory that was allocated is one event per publication made
while as many publications at its node were running as the pool had free objects. -/
theorem C73_pool_restored {net : Net T} (hw : net.Whole) (hk : NoKeeper net) {s s' : St T} (h : Reach net s) {ps : List (Nat × Cmd T)}
    (hps : ∀ p ∈ ps, p.2.Whole (net.cfg p.1)) {depth : Nat} {thrown : Bool} (he : exec net depth s ps = some (s', thrown)) :
    (∀ n, stackOf (s'.pub n) = stackOf (s.pub n)) ∧
    ∃ es, trace net.spec depth [] (net.values ps) = some (es, thrown) ∧
      ∀ m, (s'.pub m).allocs = (s.pub m).allocs + tooDeep m (stackOf (s.pub m)).length es := by
  obtain ⟨es, ht, _, hr⟩ := sim_some hw (inv_reach hw h) hps he
  obtain ⟨h1, _, _, h4⟩ := hr.back hk
  exact ⟨h1, es, ht, h4⟩

/-! ### Networks without cycles -/

/-- Every listener publishes only at nodes of lower rank. -/
def Acyclic (net : Nat → List (SLis T)) (rank : Nat → Nat) : Prop :=
  ∀ n, ∀ l ∈ net n, ∀ v, ∀ p ∈ l.out v, rank p.1 < rank n

theorem inOrder_some {α ε : Type} (f : α → Option (List ε × Bool)) (as : List α) (h : ∀ a ∈ as, f a ≠ none) : inOrder f as ≠ none := by
  induction as with
  | nil => simp [inOrder]
  | cons a as ih =>
    have h1 := h a (by simp)
    have h2 := ih (fun a ha => h a (by simp [ha]))
    simp only [inOrder]
    cases hf : f a with
    | none => exact absurd hf h1
    | some r =>
      obtain ⟨es, b⟩ := r
      cases b with
      | true => simp
      | false => simpa using h2

theorem trace_acyclic {net : Nat → List (SLis T)} {rank : Nat → Nat} (ha : Acyclic net rank) (k : Nat) : ∀ (under : List Nat)
    (ps : List (Nat × T)), (∀ p ∈ ps, rank p.1 < k) → trace net k under ps ≠ none := by
  induction k with
  | zero =>
    intro under ps hps
    cases ps with
    | nil => simp [trace]
    | cons p ps => exact absurd (hps p (by simp)) (by omega)
  | succ k ih =>
    intro under ps hps
    simp only [trace]
    refine inOrder_some _ _ (fun p hp => ?_)
    intro hn
    rw [Option.map_eq_none_iff] at hn
    refine inOrder_some _ _ (fun l hl => ?_) hn
    intro hn
    rw [Option.map_eq_none_iff] at hn
    refine ih _ _ (fun q hq => ?_) hn
    have h1 := ha p.1 l hl p.2 q hq
    have h2 := hps p hp
    omega

theorem inOrder_mem {α ε : Type} {f : α → Option (List ε × Bool)} {as : List α} {es : List ε} {b : Bool}
    (h : inOrder f as = some (es, b)) {e : ε} (he : e ∈ es) : ∃ a ∈ as, ∃ r, f a = some r ∧ e ∈ r.1 := by
  induction as generalizing es b with
  | nil =>
    simp only [inOrder, Option.some.injEq, Prod.mk.injEq] at h
    obtain ⟨rfl, rfl⟩ := h
    cases he
  | cons a as ih =>
    simp only [inOrder] at h
    cases hf : f a with
    | none => simp [hf] at h
    | some r =>
      obtain ⟨es1, b1⟩ := r
      cases b1 with
      | true =>
        simp only [hf, Option.some.injEq, Prod.mk.injEq] at h
        obtain ⟨rfl, rfl⟩ := h
        exact ⟨a, by simp, _, hf, he⟩
      | false =>
        simp only [hf] at h
        cases hx : inOrder f as with
        | none => simp [hx] at h
        | some q =>
          obtain ⟨es2, b2⟩ := q
          simp only [hx, Option.map_some, Option.some.injEq, Prod.mk.injEq] at h
          obtain ⟨rfl, rfl⟩ := h
          rcases List.mem_append.mp he with hm | hm
          · exact ⟨a, by simp, _, hf, hm⟩
          · obtain ⟨a', ha', r, hr, hm'⟩ := ih hx hm
            exact ⟨a', by simp [ha'], r, hr, hm'⟩

theorem trace_under {net : Nat → List (SLis T)} {rank : Nat → Nat} (ha : Acyclic net rank) (k : Nat) : ∀ (under : List Nat)
    (ps : List (Nat × T)) (es : List (Ev T)) (b : Bool), (∀ p ∈ ps, ∀ u ∈ under, rank p.1 < rank u) → trace net k under ps = some (es, b) →
    ∀ n v u, Ev.pub n v u ∈ es → ∀ x ∈ u, rank n < rank x := by
  induction k with
  | zero =>
    intro under ps es b hu ht n v u he
    cases ps with
    | nil =>
      simp only [trace, Option.some.injEq, Prod.mk.injEq] at ht
      obtain ⟨rfl, rfl⟩ := ht
      cases he
    | cons p ps => simp [trace] at ht
  | succ k ih =>
    intro under ps es b hu ht n v u he
    simp only [trace] at ht
    obtain ⟨p, hp, r, hr, hm⟩ := inOrder_mem ht he
    simp only [Option.map_eq_some_iff] at hr
    obtain ⟨r1, hr1, rfl⟩ := hr
    simp only [List.mem_cons] at hm
    rcases hm with hm | hm
    · simp only [Ev.pub.injEq] at hm
      obtain ⟨rfl, rfl, rfl⟩ := hm
      exact hu p hp
    · obtain ⟨l, hl, r2, hr2, hm2⟩ := inOrder_mem (b := r1.2) (es := r1.1) hr1 hm
      simp only [Option.map_eq_some_iff] at hr2
      obtain ⟨r3, hr3, rfl⟩ := hr2
      simp only [List.mem_cons] at hm2
      rcases hm2 with hm2 | hm2
      · cases hm2
      · refine ih (p.1 :: under) (l.out p.2) r3.1 r3.2 ?_ hr3 n v u hm2
        intro q hq x hx
        have h1 := ha p.1 l hl p.2 q hq
        rcases List.mem_cons.mp hx with rfl | hx
        · exact h1
        · exact Nat.lt_trans h1 (hu p hp x hx)

/-- **C73, networks without cycles.** If the providers can be ranked so that listeners publish only downwards, every publication
returns, and one free object in each pool is enough for never allocating memory, however long the chains are. -/
theorem C73_acyclic {net : Net T} (hw : net.Whole) {rank : Nat → Nat} (ha : Acyclic net.spec rank) {s : St T} (h : Reach net s)
    (ps : List (Nat × Cmd T)) (hps : ∀ p ∈ ps, p.2.Whole (net.cfg p.1)) :
    ∃ depth s' thrown, exec net depth s ps = some (s', thrown) ∧
      (NoKeeper net → (∀ n, stackOf (s.pub n) ≠ []) → ∀ m, (s'.pub m).allocs = (s.pub m).allocs) := by
  have hb : ∃ k, ∀ p ∈ net.values ps, rank p.1 < k := by
    generalize net.values ps = qs
    induction qs with
    | nil => exact ⟨0, by simp⟩
    | cons q qs ih =>
      obtain ⟨k, hk⟩ := ih
      refine ⟨max k (rank q.1 + 1), fun p hp => ?_⟩
      rcases List.mem_cons.mp hp with rfl | hp
      · omega
      · have := hk p hp; omega
  obtain ⟨k, hk⟩ := hb
  have hne := trace_acyclic ha k [] (net.values ps) hk
  have hs := C73_synchronous hw h ps hps k
  cases hx : exec net k s ps with
  | none =>
    rw [hx] at hs
    cases hy : trace net.spec k [] (net.values ps) with
    | none => exact absurd hy hne
    | some r => rw [hy] at hs; cases hs
  | some q =>
    obtain ⟨s', b⟩ := q
    refine ⟨k, s', b, hx, ?_⟩
    intro hk hst m
    obtain ⟨_, es, ht, hal⟩ := C73_pool_restored hw hk h hps hx
    rw [hal m]
    have h0 : tooDeep m (stackOf (s.pub m)).length es = 0 := by
      unfold tooDeep
      rw [List.countP_eq_zero]
      intro e he
      cases e with
      | call n l v => simp
      | pub n v u =>
        simp only [decide_eq_true_eq]
        rintro ⟨rfl, hle⟩
        have hpos : 0 < (stackOf (s.pub n)).length := List.length_pos_iff.mpr (hst n)
        have hmem : n ∈ u := List.count_pos_iff.mp (by omega)
        exact Nat.lt_irrefl _ (trace_under ha k [] (net.values ps) es b (by simp) ht n v u he n hmem)
    rw [h0]
    rfl

/-- A node whose listener publishes at the same node again. -/
def endless : Net Nat where
  cfg _ := { poolSize := 1, dflt := 0, initF := none, cloner := none }
  lis n := if n = 0 then [{ name := 0, react := fun v => [(0, .publish (v + 1))], fails := fun _ => false, keeps := fun _ => false }] else []

/-- A cycle that nothing stops: `publish` does not return at any depth. -/
theorem C73_endless (depth : Nat) (v : Nat) : exec endless depth (St.init endless) [(0, .publish v)] = none := by
  have hw : endless.Whole := ⟨by simp [endless], by
    intro n l hl v p hp
    by_cases e : n = 0
    · subst e
      simp only [endless, if_true, List.mem_singleton] at hl
      subst hl
      simp only [List.mem_singleton] at hp
      subst hp
      trivial
    · simp [endless, e] at hl⟩
  have hs := C73_synchronous hw Reach.init [(0, .publish v)] (by simp [Cmd.Whole]) depth
  have ht : ∀ k u w, trace endless.spec k u [(0, w)] = none := by
    intro k
    induction k with
    | zero => intro u w; rfl
    | succ k ih =>
      intro u w
      have e : endless.spec 0 = [⟨0, fun v => [(0, v + 1)], fun _ => false⟩] := rfl
      simp only [trace, inOrder, e, ih, Option.map_none]
  cases hx : exec endless depth (St.init endless) [(0, .publish v)] with
  | none => rfl
  | some q =>
    rw [hx] at hs
    rw [show endless.values [(0, Cmd.publish v)] = [(0, v)] from rfl, ht] at hs
    cases hs

/-- Node 0 has two listeners: the first publishes `v + 1` at node 1 and, through a process forwarder, `2 v` at node 2; the second keeps
even values.  The listener of node 1 publishes once more at node 1 if its value is less than 12, and throws at 99; the pool of node
1 has one object. -/
def sample : Net Nat where
  cfg _ := { poolSize := 1, dflt := 0, initF := some (fun _ => 7), cloner := none }
  lis n :=
    if n = 0 then
      [{ name := 0, react := fun v => [(1, .publish (v + 1)), (2, .process (fun _ => 2 * v))], fails := fun _ => false, keeps := fun _ => false },
       { name := 1, react := fun _ => [], fails := fun _ => false, keeps := fun v => v % 2 == 0 }]
    else if n = 1 then
      [{ name := 0, react := fun v => if v < 12 then [(1, .publish (v + 1))] else [], fails := fun v => v == 99, keeps := fun _ => false }]
    else [{ name := 5, react := fun _ => [], fails := fun _ => false, keeps := fun _ => false }]

theorem sample_whole : sample.Whole := by
  refine ⟨by simp [sample], ?_⟩
  intro n l hl v p hp
  by_cases e0 : n = 0
  · subst e0
    simp only [sample, if_true, List.mem_cons, List.not_mem_nil, or_false] at hl
    rcases hl with rfl | rfl
    · simp only [List.mem_cons, List.not_mem_nil, or_false] at hp
      rcases hp with rfl | rfl
      · trivial
      · intro old; rfl
    · cases hp
  · by_cases e1 : n = 1
    · subst e1
      simp only [sample, if_neg (show ¬ (1 : Nat) = 0 by decide), if_true, List.mem_singleton] at hl
      subst hl
      simp only at hp
      split at hp
      · simp only [List.mem_singleton] at hp; subst hp; trivial
      · cases hp
    · simp only [sample, if_neg e0, if_neg e1, List.mem_singleton] at hl
      subst hl
      cases hp

/-- Three publications of the program on `sample`: 10 (kept by a listener, so that the next one needs a new object at node 0; nested
publications at node 1 need a second object once), 98 (ends with an exception before the second listener of node 0) and 3. -/
theorem C73_example :
    ∃ s1 s2 s3, exec sample 3 (St.init sample) [(0, .publish 10)] = some (s1, false) ∧
      exec sample 3 s1 [(0, .publish 98)] = some (s2, true) ∧ exec sample 3 s2 [(2, .process (fun _ => 3)), (0, .publish 20)] = some (s3, false) ∧
      (s3.log = [(0, 0, 10), (1, 0, 11), (1, 0, 12), (2, 5, 20), (0, 1, 10), (0, 0, 98), (1, 0, 99), (2, 5, 3), (0, 0, 20), (1, 0, 21),
        (2, 5, 40), (0, 1, 20)] ∧
      (s1.held = [(0, 0, 10)] ∧ s3.held = [(0, 2, 20), (0, 0, 10)]) ∧
      ((s3.pub 0).allocs = 3 ∧ (s3.pub 1).allocs = 2 ∧ (s3.pub 2).allocs = 1) ∧
      stackOf (s3.pub 0) = [] ∧ stackOf (s3.pub 1) = [0] ∧ stackOf (s3.pub 2) = [0]) :=
  ⟨_, _, _, rfl, rfl, rfl, by decide +kernel⟩

end Verif.SyncNet
