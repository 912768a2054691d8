import Verif.Model.CacheListener
import Verif.Lemmas.Sequencer

/-!
Properties of the cache listeners (C45).  `Reach true`: every interleaving of any number of threads that deliver events and read the
multi-thread listener.
-/

namespace Verif.Cache
open Verif Verif.Disr

variable {E : Type}

/-- Inside the critical section. -/
def Inside : Pc E → Bool
  | .writing _ => true
  | .stored _ => true
  | .readingLast => true
  | .readCnt => true
  | .readingPair _ => true
  | _ => false

structure Inv (s : St E) : Prop where
  excl : ∀ t, Inside (s.pc t) = true ↔ s.owner = some t
  cnt : s.counter = toInt32 s.received.length
  lst : (∀ t e, s.pc t ≠ .stored e) → s.last = s.received.getLast?
  sto : ∀ t e, s.pc t = .stored e → s.last = some e
  rd : ∀ t n, s.pc t = .readingPair n → n = s.counter
  lasts : ∀ r ∈ s.lasts, ∃ m, m ≤ s.received.length ∧ r = (s.received.take m).getLast?
  pairs : ∀ r ∈ s.pairs, ∃ m : Nat, m ≤ s.received.length ∧ r.1 = toInt32 m ∧ r.2 = (s.received.take m).getLast?

theorem isIdle_iff {pc : Pc E} (h : pc.isIdle = true) : pc = .idle := by
  cases pc <;> first | rfl | cases h

theorem toInt32_add_one (n : Int) : toInt32 (toInt32 n + 1) = toInt32 (n + 1) := by
  simp only [toInt32_eq, Int.bmod_add_bmod]

theorem Inv.init : Inv (St.init : St E) := by
  constructor <;> simp [St.init, Inside, toInt32]

theorem Inv.step {s s' : St E} {a : Act E} (h : Inv s) (hs : step true s a = some s') : Inv s' := by
  have call : ∀ (t : Nat) (pc : Pc E), s.pc t = .idle → (pc = .wantLast ∨ pc = .wantPair ∨ ∃ e, pc = .wantRecv e) → s' = { s with pc := upd s.pc t pc } → Inv s' := by
    intro t pc hi hpc e
    subst e
    have hno : Inside pc = false ∧ (∀ e, pc ≠ .stored e) ∧ (∀ n, pc ≠ .readingPair n) := by
      rcases hpc with rfl | rfl | ⟨e, rfl⟩ <;> simp [Inside]
    have ho : s.owner ≠ some t := by
      intro ho; have := (h.excl t).mpr ho; rw [hi] at this; cases this
    refine ⟨?_, h.cnt, ?_, ?_, ?_, h.lasts, h.pairs⟩
    · intro u; simp only [upd_apply]; split
      · next e => subst e; rw [hno.1]; simp [ho]
      · exact h.excl u
    · intro hn; refine h.lst (fun u e => ?_)
      by_cases hu : u = t
      · subst hu; rw [hi]; simp
      · have := hn u e; simpa [upd_apply, hu] using this
    · intro u e; simp only [upd_apply]; split
      · intro hc; exact absurd hc (hno.2.1 e)
      · exact h.sto u e
    · intro u n; simp only [upd_apply]; split
      · intro hc; exact absurd hc (hno.2.2 n)
      · exact h.rd u n
  -- only the owner is inside
  have out : ∀ {t u : Nat}, s.owner = some t → u ≠ t → Inside (s.pc u) = false := by
    intro t u ho hu
    cases hc : Inside (s.pc u) with
    | false => rfl
    | true => have := (h.excl u).mp hc; rw [ho] at this; cases this; exact absurd rfl hu
  have noSt : ∀ {t u : Nat}, s.owner = some t → u ≠ t → (∀ e, s.pc u ≠ .stored e) ∧ (∀ n, s.pc u ≠ .readingPair n) := by
    intro t u ho hu
    have := out ho hu
    constructor <;> intro x hx <;> rw [hx] at this <;> cases this
  have ext : ∀ (e : E) (m : Nat), m ≤ s.received.length → (s.received ++ [e]).take m = s.received.take m := by
    intro e m hm; rw [List.take_append_of_le_length hm]
  cases a with
  | recv t e =>
    simp only [Verif.Cache.step] at hs
    split at hs
    · next hi => exact call t _ (isIdle_iff hi) (.inr (.inr ⟨e, rfl⟩)) (by simpa using hs.symm)
    · cases hs
  | getLast t =>
    simp only [Verif.Cache.step] at hs
    split at hs
    · next hi => exact call t _ (isIdle_iff hi) (.inl rfl) (by simpa using hs.symm)
    · cases hs
  | getPair t =>
    simp only [Verif.Cache.step] at hs
    split at hs
    · next hi => exact call t _ (isIdle_iff hi) (.inr (.inl rfl)) (by simpa using hs.symm)
    · cases hs
  | enter t =>
    simp only [Verif.Cache.step] at hs
    split at hs
    · cases hs
    · next hl =>
      have ho : s.owner = none := by
        cases hc : s.owner with
        | none => rfl
        | some u => exact absurd ⟨trivial, by rw [hc]; simp⟩ hl
      have hout : ∀ u, Inside (s.pc u) = false := by
        intro u
        cases hc : Inside (s.pc u) with
        | false => rfl
        | true => have := (h.excl u).mp hc; rw [ho] at this; cases this
      have hst : ∀ u e, s.pc u ≠ .stored e := by intro u e hx; have := hout u; rw [hx] at this; cases this
      have hrp : ∀ u n, s.pc u ≠ .readingPair n := by intro u e hx; have := hout u; rw [hx] at this; cases this
      have key : ∀ pc : Pc E, Inside pc = true → (∀ e, pc ≠ .stored e) → (∀ n, pc ≠ .readingPair n) → s' = { s with pc := upd s.pc t pc, owner := some t } → Inv s' := by
        intro pc hin h1 h2 e
        subst e
        refine ⟨?_, h.cnt, fun _ => h.lst hst, ?_, ?_, h.lasts, h.pairs⟩
        · intro u; simp only [upd_apply]; split
          · next e => subst e; simp [hin]
          · next hu => rw [hout u]; simp; exact fun e => hu e.symm
        · intro u e; simp only [upd_apply]; split
          · intro hc; exact absurd hc (h1 e)
          · intro hc; exact absurd hc (hst u e)
        · intro u n; simp only [upd_apply]; split
          · intro hc; exact absurd hc (h2 n)
          · intro hc; exact absurd hc (hrp u n)
      split at hs
      · next e _ => exact key (.writing e) rfl (by simp) (by simp) (by simpa using hs.symm)
      · exact key .readingLast rfl (by simp) (by simp) (by simpa using hs.symm)
      · exact key .readCnt rfl (by simp) (by simp) (by simpa using hs.symm)
      · cases hs
  | next t =>
    simp only [Verif.Cache.step] at hs
    -- leaving the critical section
    have leave : ∀ (s1 : St E), s1.pc = upd s.pc t .idle → s1.owner = none → s.owner = some t →
        (∀ u, Inside (s1.pc u) = true ↔ s1.owner = some u) ∧ (∀ u e, s1.pc u ≠ .stored e) ∧ (∀ u n, s1.pc u ≠ .readingPair n) := by
      intro s1 e1 e2 ho
      refine ⟨?_, ?_, ?_⟩
      · intro u; rw [e1, e2]; simp only [upd_apply]; split
        · simp [Inside]
        · next hu => rw [out ho hu]; simp
      · intro u e; rw [e1]; simp only [upd_apply]; split
        · simp
        · next hu => exact (noSt ho hu).1 e
      · intro u n; rw [e1]; simp only [upd_apply]; split
        · simp
        · next hu => exact (noSt ho hu).2 n
    split at hs
    · next e hp =>
      have ho : s.owner = some t := (h.excl t).mp (by rw [hp]; rfl)
      cases hs
      refine ⟨?_, h.cnt, ?_, ?_, ?_, h.lasts, h.pairs⟩
      · intro u; simp only [upd_apply]; split
        · next e => subst e; simp [Inside, ho]
        · exact h.excl u
      · intro hn; exact absurd (by simp) (hn t e)
      · intro u e'; simp only [upd_apply]; split
        · intro hc; cases hc; rfl
        · next hu => intro hc; exact absurd hc ((noSt ho hu).1 e')
      · intro u n; simp only [upd_apply]; split
        · intro hc; cases hc
        · next hu => intro hc; exact absurd hc ((noSt ho hu).2 n)
    · next e hp =>
      have ho : s.owner = some t := (h.excl t).mp (by rw [hp]; rfl)
      cases hs
      obtain ⟨l1, l2, l3⟩ := leave { s with counter := toInt32 (s.counter + 1), received := s.received ++ [e], pc := upd s.pc t .idle, owner := none } rfl rfl ho
      refine ⟨l1, ?_, ?_, fun u e hc => absurd hc (l2 u e), fun u n hc => absurd hc (l3 u n), ?_, ?_⟩
      · simp only [h.cnt, toInt32_add_one, List.length_append, List.length_singleton]; rfl
      · intro _; rw [h.sto t e hp]; simp
      · intro r hr
        obtain ⟨m, h1, h2⟩ := h.lasts r hr
        exact ⟨m, by simp; omega, by rw [ext e m h1]; exact h2⟩
      · intro r hr
        obtain ⟨m, h1, h2, h3⟩ := h.pairs r hr
        exact ⟨m, by simp; omega, h2, by rw [ext e m h1]; exact h3⟩
    · next hp =>
      have ho : s.owner = some t := (h.excl t).mp (by rw [hp]; rfl)
      cases hs
      obtain ⟨l1, l2, l3⟩ := leave { s with lasts := s.last :: s.lasts, pc := upd s.pc t .idle, owner := none } rfl rfl ho
      have hl : s.last = s.received.getLast? := h.lst (fun u e hx => by
        by_cases hu : u = t
        · subst hu; rw [hp] at hx; cases hx
        · exact (noSt ho hu).1 e hx)
      refine ⟨l1, h.cnt, fun _ => hl, fun u e hc => absurd hc (l2 u e), fun u n hc => absurd hc (l3 u n), ?_, h.pairs⟩
      intro r hr
      rcases List.mem_cons.mp hr with rfl | hr
      · exact ⟨s.received.length, Nat.le_refl _, by simpa using hl⟩
      · exact h.lasts r hr
    · next hp =>
      have ho : s.owner = some t := (h.excl t).mp (by rw [hp]; rfl)
      cases hs
      refine ⟨?_, h.cnt, ?_, ?_, ?_, h.lasts, h.pairs⟩
      · intro u; simp only [upd_apply]; split
        · next e => subst e; simp [Inside, ho]
        · exact h.excl u
      · intro hn; refine h.lst (fun u e => ?_)
        by_cases hu : u = t
        · subst hu; rw [hp]; simp
        · exact (noSt ho hu).1 e
      · intro u e'; simp only [upd_apply]; split
        · intro hc; cases hc
        · next hu => intro hc; exact absurd hc ((noSt ho hu).1 e')
      · intro u n; simp only [upd_apply]; split
        · intro hc; cases hc; rfl
        · next hu => intro hc; exact absurd hc ((noSt ho hu).2 n)
    · next n hp =>
      have ho : s.owner = some t := (h.excl t).mp (by rw [hp]; rfl)
      cases hs
      obtain ⟨l1, l2, l3⟩ := leave { s with pairs := (n, s.last) :: s.pairs, pc := upd s.pc t .idle, owner := none } rfl rfl ho
      have hl : s.last = s.received.getLast? := h.lst (fun u e hx => by
        by_cases hu : u = t
        · subst hu; rw [hp] at hx; cases hx
        · exact (noSt ho hu).1 e hx)
      refine ⟨l1, h.cnt, fun _ => hl, fun u e hc => absurd hc (l2 u e), fun u n hc => absurd hc (l3 u n), h.lasts, ?_⟩
      intro r hr
      rcases List.mem_cons.mp hr with rfl | hr
      · exact ⟨s.received.length, Nat.le_refl _, by rw [h.rd t n hp, h.cnt], by simpa using hl⟩
      · exact h.pairs r hr
    · cases hs

theorem Reach.inv {s : St E} (h : Reach true s) : Inv s := by
  induction h with
  | init => exact Inv.init
  | step _ hs ih => exact ih.step hs

/-- **C45**: the counter is the number of events received (modulo the range of `int`), at every moment. -/
theorem C45_counter {s : St E} (h : Reach true s) : s.counter = toInt32 s.received.length ∧ (s.received.length < 2 ^ 31 → s.counter = s.received.length) := by
  refine ⟨h.inv.cnt, fun hl => ?_⟩
  rw [h.inv.cnt]; exact toInt32_small (by omega) (by omega)

/-- **C45**: every pair returned by `getCounterAndEvent` belongs together: the counter counts the events up to and including the one
returned. -/
theorem C45_pair_belongs_together {s : St E} (h : Reach true s) {n : Int} {e : Option E} (hr : (n, e) ∈ s.pairs) (hl : s.received.length < 2 ^ 31) :
    ∃ m : Nat, m ≤ s.received.length ∧ n = m ∧ (m = 0 → e = none) ∧ (∀ i, m = i + 1 → e = s.received[i]?) := by
  obtain ⟨m, h1, h2, h3⟩ := h.inv.pairs _ hr
  refine ⟨m, h1, ?_, ?_, ?_⟩
  · simp only at h2; rw [h2]; exact toInt32_small (by omega) (by omega)
  · rintro rfl; simpa using h3
  · rintro i rfl
    simp only at h3
    rw [h3, List.getLast?_eq_getElem?, List.getElem?_take, List.length_take, Nat.min_eq_left h1]
    simp

/-- **C45**: a call of `getLastReceivedEvent` returns the last of the events received when it has the mutex (nothing before the first), and every
result was the newest event at some moment. -/
theorem C45_last_is_newest {s s' : St E} (h : Reach true s) {t : Nat} (ht : s.pc t = .readingLast) (hs : step true s (.next t) = some s') :
    s'.lasts = s.received.getLast? :: s.lasts ∧ s'.received = s.received := by
  have hp : ∀ u e, s.pc u ≠ .stored e := by
    intro u e hx
    have h1 := (h.inv.excl t).mp (by rw [ht]; rfl)
    have h2 := (h.inv.excl u).mp (by rw [hx]; rfl)
    rw [h1] at h2; cases h2; rw [ht] at hx; cases hx
  simp only [step, ht, Option.some.injEq] at hs
  subst hs
  exact ⟨by rw [h.inv.lst hp], rfl⟩

/-- **C45**: no two threads access the stored event at the same time when one of them writes. -/
theorem C45_no_race {s : St E} (h : Reach true s) : ¬ Race s := by
  rintro ⟨t, u, w, hne, h1, h2⟩
  have e1 : Inside (s.pc t) = true := by
    revert h1; simp only [Accessing]; cases s.pc t <;> simp [Inside]
  have e2 : Inside (s.pc u) = true := by
    revert h2; simp only [Accessing]; cases s.pc u <;> simp [Inside]
  have a := (h.inv.excl t).mp e1
  have b := (h.inv.excl u).mp e2
  rw [a] at b; cases b; exact hne rfl

/-- The listener without mutex, used by one thread: `n` events delivered one after the other. -/
theorem C45_single_thread {s : St E} {t : Nat} (hp : s.pc t = .idle) (es : List E) :
    run false s (es.flatMap (fun e => [.recv t e, .enter t, .next t, .next t])) = some { s with
      last := (es.getLast?).or s.last
      counter := if es = [] then s.counter else toInt32 (s.counter + es.length)
      received := s.received ++ es
      pc := if es = [] then s.pc else upd s.pc t .idle
      owner := if es = [] then s.owner else none } := by
  induction es generalizing s with
  | nil => simp [run]
  | cons e es ih =>
    let s1 : St E := { s with last := some e, counter := toInt32 (s.counter + 1), received := s.received ++ [e], pc := upd s.pc t .idle, owner := none }
    have hupd : ∀ a b : Pc E, upd (upd s.pc t a) t b = upd s.pc t b := by
      intro a b; funext u; simp only [upd_apply]; split <;> rfl
    have h1 : run false s ([.recv t e, .enter t, .next t, .next t] ++ es.flatMap (fun e => [.recv t e, .enter t, .next t, .next t])) =
        run false s1 (es.flatMap (fun e => [.recv t e, .enter t, .next t, .next t])) := by
      simp [run, step, hp, s1, hupd, Pc.isIdle]
    rw [List.flatMap_cons, h1, ih (s := s1) (by simp [s1])]
    cases es with
    | nil => simp [s1]
    | cons e' es' =>
      have e1 : toInt32 (toInt32 (s.counter + 1) + ((es'.length : Int) + 1)) = toInt32 (s.counter + ((es'.length : Int) + 1 + 1)) := by
        simp only [toInt32_eq, Int.bmod_add_bmod]; congr 1; omega
      simp only [s1, hupd, List.length_cons, Nat.cast_add, Nat.cast_one, e1]
      cases hg : (e' :: es').getLast? with
      | none => simp at hg
      | some x => simp [hg, e1]

/-- The hypotheses are met: a reader between two deliveries gets the pair of the first. -/
theorem C45_example : ∃ s : St Nat, Reach true s ∧ s.pairs = [(1, some 7)] ∧ s.received = [7, 8] := by
  have hx : (run true (St.init : St Nat) [.recv 0 7, .getPair 1, .recv 2 8, .enter 0, .next 0, .next 0, .enter 1, .next 1, .next 1, .enter 2, .next 2, .next 2]).map
      (fun s => (s.pairs, s.received)) = some ([(1, some 7)], [7, 8]) := by decide +kernel
  have reach : ∀ (as : List (Act Nat)) (s s' : St Nat), Reach true s → run true s as = some s' → Reach true s' := by
    intro as
    induction as with
    | nil => intro s s' h hr; simp only [run, Option.some.injEq] at hr; exact hr ▸ h
    | cons a as ih =>
      intro s s' h hr
      simp only [run] at hr
      split at hr
      · cases hr
      · next s1 h1 => exact ih s1 s' (h.step h1) hr
  obtain ⟨s, hs, he⟩ := Option.map_eq_some_iff.mp hx
  simp only [Prod.mk.injEq] at he
  exact ⟨s, reach _ _ _ .init hs, he.1, he.2⟩

/-- The plain listener has no such protection: a reader and a deliverer collide. -/
theorem C45_plain_listener_races : ∃ s : St Nat, Reach false s ∧ Race s := by
  refine ⟨⟨none, 0, none, upd (upd (upd (upd (fun _ => .idle) 0 (.wantRecv 7)) 1 .wantLast) 0 (.writing 7)) 1 .readingLast, [], [], []⟩, ?_, 0, 1, false, by simp, ?_, ?_⟩
  · refine .step (a := .enter 1) (s := ⟨none, 0, none, upd (upd (upd (fun _ => .idle) 0 (.wantRecv 7)) 1 .wantLast) 0 (.writing 7), [], [], []⟩) ?_ (by simp [step, upd_apply, Pc.isIdle])
    refine .step (a := .enter 0) (s := ⟨none, 0, none, upd (upd (fun _ => .idle) 0 (.wantRecv 7)) 1 .wantLast, [], [], []⟩) ?_ (by simp [step, upd_apply, Pc.isIdle])
    refine .step (a := .getLast 1) (s := ⟨none, 0, none, upd (fun _ => .idle) 0 (.wantRecv 7), [], [], []⟩) ?_ (by simp [step, upd_apply, Pc.isIdle])
    exact .step (a := .recv 0 7) .init (by simp [step, St.init, Pc.isIdle])
  · simp [Accessing, upd_apply]
  · simp [Accessing, upd_apply]

end Verif.Cache
