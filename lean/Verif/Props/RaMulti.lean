import Verif.Lemmas.RaMulti

/-!
C61, several producers.  Same vocabulary as Props/RaRing.lean: `Mem.WriteOrdered`, `Mem.ReadOrdered` (Model/Memory.lean).  `sync = false` is the
code, `sync = true` the code with the availability flags stored with release and loaded with acquire order: everything else is the same.
-/

namespace Verif.RaMulti
open Verif Verif.Disr Verif.RA

variable {V : Type}

/-- Any number of producers, the code as it is and the repaired code: whatever the loads return (cursor, cached minimum, sequences of the processors,
flags, stale values included), a producer that writes to the slot of a sequence it has claimed is ordered after every read of that slot by any thread:
the previous event is not overwritten while a handler reads it.
Missing: that the write is ordered after the previous write and the reads after the write (C61_violation_multi_write_race,
C61_violation_multi_event_race). -/
theorem C61_multi_write_after_reads_partial {sync : Bool} {k : Nat} (hk : k ≤ 30) {G : List Nat} (hG : G ≠ []) {s s' : St V}
    (h : Reach sync k G s) {p : Nat} {x : Int} {v : V} (hs : step sync k G s (.write p x v) = some s') :
    ∀ u, s.mem.reads (slotO (slotIdx k x)) u ≤ (s.mem.view (prodT p)).r (slotO (slotIdx k x)) u := by
  have hi := h.inv hk hG
  simp only [step] at hs
  split at hs
  · next hx =>
    intro u
    obtain ⟨⟨q, h1, h2⟩, _⟩ := hi.own x p hx
    obtain ⟨hx0, hx1⟩ := hi.ownR x p hx
    rcases Nat.mod_two_eq_zero_or_one u with e | e
    · have : u = prodT (u / 2) := by unfold prodT; omega
      rw [this, hi.preads]; exact Nat.zero_le _
    · have hu : u = procT (u / 2) := by unfold procT; omega
      rw [hu]
      by_cases hc : u / 2 ∈ G
      · refine (h2 _ hc).2 _ (fun y h3 h4 => ?_)
        have h5 := hi.own_gt hx hc
        have h6 := (hi.cok (u / 2)).low_pos
        exact slot_ne hk (by omega) (by omega)
      · rw [(hi.out _ hc).2]; exact Nat.zero_le _
  · cases hs

/-- A sequence that is claimed and not yet published belongs to one producer; a claim takes only sequences above the newest cursor, and the handlers
are given only published sequences: for the code as it is, whatever the loads return.
Missing: the order of the accesses to the event (C61_violation_multi_event_race). -/
theorem C61_multi_claims_partial {sync : Bool} {k : Nat} (hk : k ≤ 30) {G : List Nat} (hG : G ≠ []) {s s' : St V} (h : Reach sync k G s) {a : Act V}
    (hs : step sync k G s a = some s') (hlim : s'.cur < 2 ^ 31) :
    (∀ x p r, s.owner x = some p → s'.owner x = some r → p = r) ∧ (∀ x p, s'.owner x = some p → s.owner x = some p ∨ s.cur < x) ∧
      ∀ c x v, (x, v) ∈ s'.log c → x ≤ s'.cur ∧ s'.owner x = none := by
  have hi := h.inv hk hG
  have hi' := (h.step a hs hlim).inv hk hG
  have key : ∀ x p, s'.owner x = some p → s.owner x = some p ∨ s.cur < x := by
    intro x r hx
    by_cases ho : s'.owner = s.owner
    · rw [ho] at hx; exact Or.inl hx
    · cases a with
      | pstep p i =>
        simp only [step] at hs
        unfold pstep at hs
        (repeat' split at hs) <;> first | cases hs | skip
        all_goals first | exact absurd rfl ho | skip
        next n cur hpp _ q mem hr hq =>
          have hcur : s.cur = cur := by
            obtain ⟨w, hw⟩ := hi.clast
            have hw' : s.mem.last cursorV = some ⟨s.cur, w⟩ := hw
            unfold Mem.rmw at hr
            rw [hw'] at hr
            cases hr
            exact hq
          simp only at hx
          split at hx
          · next hlt => right; omega
          · exact Or.inl hx
      | publish p y =>
        simp only [step] at hs
        split at hs
        · cases hs
          simp only [upd_apply] at hx
          split at hx
          · cases hx
          · exact Or.inl hx
        · cases hs
      | _ =>
        simp only [step] at hs
        (repeat' split at hs) <;> first | cases hs | skip
        all_goals exact absurd rfl ho
  refine ⟨fun x p r h1 h2 => ?_, key, fun c x v hl => ⟨(hi'.logs c x v hl).1, (hi'.logs c x v hl).2.1⟩⟩
  rcases key x r h2 with h3 | h3
  · rw [h1] at h3; exact Option.some.inj h3
  · have := (hi.ownR x p h1).2; omega

/-- If the flags were stored with release and loaded with acquire order there would be no data race: every write to and every read from a slot is
ordered after all conflicting accesses by other threads, for any number of producers and processors and whatever the loads return.  The plain flags
are the only cause of the races.  Missing: it does not hold of the code (C61_violation_multi_event_race). -/
theorem C61_multi_fixed_no_race_partial {k : Nat} (hk : k ≤ 30) {G : List Nat} (hG : G ≠ []) {s s' : St V} (h : Reach true k G s) :
    (∀ p x v, step true k G s (.write p x v) = some s' → s.mem.WriteOrdered (prodT p) (slotO (slotIdx k x))) ∧
    (∀ c, step true k G s (.read c) = some s' → ∃ x v, s'.log c = (x, v) :: s.log c ∧ s.mem.ReadOrdered (procT c) (slotO (slotIdx k x))) := by
  have hi := h.inv hk hG
  constructor
  · intro p x v hs
    refine ⟨?_, C61_multi_write_after_reads_partial hk hG h hs⟩
    simp only [step] at hs
    split at hs
    · next hx => exact (hi.own x p hx).2 rfl
    · cases hs
  · intro c hs
    simp only [step] at hs
    split at hs
    · next nx av hcp =>
      have hc : c ∈ G := mem_G hi (by rw [hcp]; nofun)
      have h1 := hi.procW c hc
      have h2 := hi.cap c hc
      have h3 := hi.cok c
      rw [hcp] at h1 h2 h3
      split at hs
      · next v mem _ => cases hs; exact ⟨nx, v, by simp, h1 rfl nx h3.2 h2⟩
      · cases hs
    · cases hs

/-- With such flags a handler reads the value that the owner of the sequence wrote last before it published it.
Missing: it does not hold of the code (C61_violation_multi_event_race). -/
theorem C61_multi_fixed_right_value_partial {k : Nat} (hk : k ≤ 30) {G : List Nat} (hG : G ≠ []) {s : St V} (h : Reach true k G s)
    {c : Nat} {x : Int} {v : Option V} (hl : (x, v) ∈ s.log c) : x ≤ s.cur ∧ s.owner x = none ∧ ∀ v', s.val x = some v' → v = some v' :=
  (h.inv hk hG).logs c x v hl

/-- The steps of a call that finds room at once: load the cursor (message `i`), load the cache (message `j`), compare-and-set. -/
def claim (p i j : Nat) (n : Int) : List (Act Nat) := [.call p false n, .pstep p i, .pstep p j, .pstep p 0]

/-- Producer 7 claims sequence 0; processor 1 sees the advanced cursor; the producer writes the event and sets the flag, a plain `int`; the processor
reads the flag. -/
def racyRun : List (Act Nat) := claim 7 0 0 1 ++ [.look 1 1, .write 7 0 42, .publish 7 0]

/-- Violation: the read of the availability flag is not ordered after the write of the producer that published the event — a data race
(undefined behaviour in C++), in a run with one producer thread and one processor. -/
theorem C61_violation_multi_flag_race : ∃ s s', run false 3 [1] .init racyRun = some s ∧ step false 3 [1] s (.flag 1 1) = some s' ∧ s'.cp 1 = .batch 0 0 ∧
    ¬ s.mem.ReadOrdered (procT 1) (flagO (availIdx 3 0)) :=
  ⟨_, _, rfl, rfl, by decide +kernel, by unfold Mem.ReadOrdered; decide +kernel⟩

/-- Violation: if the flag is found set, the handler is called and its read of the event is not ordered after the write of the event either: no
order of the language guarantees that the handler sees the event. -/
theorem C61_violation_multi_event_race : ∃ s s', run false 3 [1] .init (racyRun ++ [.flag 1 1, .advance 1]) = some s ∧
    step false 3 [1] s (.read 1) = some s' ∧ s.cp 1 = .handle 0 0 ∧ ¬ s.mem.ReadOrdered (procT 1) (slotO (slotIdx 3 0)) :=
  ⟨_, _, rfl, rfl, by decide +kernel, by unfold Mem.ReadOrdered; decide +kernel⟩

/-- Ring of one slot: producer 7 publishes sequence 0, processor 1 handles it, producer 8 claims sequence 1 — the same slot — after acquiring the
sequence of the processor. -/
def twoLaps : List (Act Nat) :=
  claim 7 0 0 1 ++ [.look 1 1, .write 7 0 42, .publish 7 0, .flag 1 1, .advance 1, .read 1, .finish 1, .advance 1,
    .call 8 false 1, .pstep 8 1, .pstep 8 0, .pstep 8 1, .pstep 8 0, .pstep 8 0, .pstep 8 1, .pstep 8 1, .pstep 8 0]

/-- Violation: the write of producer 8 to the slot is not ordered after the write of producer 7 a lap earlier. -/
theorem C61_violation_multi_write_race : ∃ s s', run false 0 [1] .init twoLaps = some s ∧ step false 0 [1] s (.write 8 1 43) = some s' ∧
    ¬ s.mem.WriteOrdered (prodT 8) (slotO (slotIdx 0 1)) :=
  ⟨_, _, rfl, rfl, fun h => by have := h.1; revert this; decide +kernel⟩

/-- The same run with the repaired flags: the write is ordered. -/
theorem C61_example_multi_fixed : ∃ s s', run true 0 [1] .init twoLaps = some s ∧ step true 0 [1] s (.write 8 1 43) = some s' ∧
    s.mem.WriteOrdered (prodT 8) (slotO (slotIdx 0 1)) ∧ s.log 1 = [(0, some 42)] := by
  have h1 : ∃ s s', run true 0 [1] (.init : St Nat) twoLaps = some s ∧ step true 0 [1] s (.write 8 1 43) = some s' ∧ s.log 1 = [(0, some 42)] :=
    ⟨_, _, rfl, rfl, by decide +kernel⟩
  obtain ⟨s, s', h1, h2, h3⟩ := h1
  exact ⟨s, s', h1, h2, (C61_multi_fixed_no_race_partial (by decide) (by decide) (run_reach .init h1)).1 _ _ _ h2, h3⟩

/-- A run with two producers and two processors on a ring of two slots, in which loads return stale values and a compare-and-set fails: producer 0
claims two sequences and publishes them in the wrong order, processor 0 sees only what is available, producer 1 claims sequence 2 with
`try_next` after both processors have finished the first lap. -/
def exampleMulti : List (Act Nat) :=
  [.call 1 false 1, .pstep 1 0, .pstep 1 0] ++ claim 0 0 0 2 ++ [.casFail 1 0, .write 0 1 11, .publish 0 1, .look 0 1, .flag 0 0, .advance 0,
   .write 0 0 10, .publish 0 0, .look 0 1, .flag 0 1, .flag 0 1, .advance 0, .read 0, .finish 0, .advance 0, .read 0, .finish 0, .advance 0,
   .look 1 0, .look 1 1, .flag 1 1, .flag 1 1, .advance 1, .read 1, .finish 1, .advance 1, .read 1, .finish 1, .advance 1,
   .call 2 true 1, .pstep 2 1, .pstep 2 0, .pstep 2 2, .pstep 2 1, .pstep 2 0, .pstep 2 0, .pstep 2 0, .write 2 2 12]

theorem C61_example_multi (sync : Bool) : (run sync 1 [0, 1] .init exampleMulti).map (fun s => (s.log 0, s.log 1, s.cur, s.owner 2)) =
    some ([(1, some 11), (0, some 10)], [(1, some 11), (0, some 10)], 2, some 2) := by cases sync <;> decide +kernel

/-- With a stale sequence of processor 1 the claim is refused. -/
theorem C61_example_multi_stale (sync : Bool) : (run sync 1 [0, 1] .init (exampleMulti.take 36 ++ [.call 2 true 1, .pstep 2 1, .pstep 2 0, .pstep 2 2, .pstep 2 0,
    .pstep 2 0, .pstep 2 0])).map (fun s => (s.cur, s.pp 2)) = some (1, .idle) := by cases sync <;> decide +kernel

end Verif.RaMulti
