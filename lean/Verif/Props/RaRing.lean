import Verif.Lemmas.RaRing

/-!
C61: memory orders.  The slots of the ring are ordinary memory: every access to a slot must be ordered (happen) after all conflicting accesses
by other threads, for all values that atomic loads may return, stale ones included.  The vocabulary is `Mem.WriteOrdered` and `Mem.ReadOrdered`
(Model/Memory.lean): the thread's view counts all accesses made so far that conflict with a write or a read of the variable.
-/

namespace Verif.RaRing
open Verif Verif.Disr Verif.RA

variable {V : Type}

/-- Single producer: no data race on a slot.  Whatever the loads of cursor and processor sequences return, a write of the producer to the slot of a
claimed sequence is ordered after all reads (of all processors) and writes of that slot, and a read by a handler is ordered after all writes.
Missing: several producers (Props/RaMulti.lean). -/
theorem C61_single_no_race_partial {k : Nat} (hk : k ≤ 30) {G : List Nat} (hG : G ≠ []) {v : V} {s : St V} (h : Reach k G v s) :
    (∀ x, s.cur < x → x ≤ s.nextVal → s.mem.WriteOrdered 0 (slotIdx k x)) ∧
    (∀ c nx av, s.cp c = .handle nx av → s.mem.ReadOrdered (c + 1) (slotIdx k nx)) := by
  have hi := h.inv hk hG
  refine ⟨fun x h1 h2 => ⟨hi.prodW _, fun u => ?_⟩, fun c nx av hc => ?_⟩
  · cases u with
    | zero => rw [hi.reads0]; exact Nat.zero_le _
    | succ c =>
      by_cases hcG : c ∈ G
      · refine (hi.known c hcG).2 _ (fun y h3 h4 => ?_)
        have h5 := hi.posLe c
        have h6 := hi.capLo
        exact slot_ne hk (by omega) (by omega)
      · rw [(hi.out c hcG).2]; exact Nat.zero_le _
  · obtain ⟨h1, h2⟩ := hi.handle c nx av hc
    exact h2.2 nx (Int.le_refl _) h1

/-- The same for the accesses themselves: every step that writes to or reads from a slot is ordered.
Missing: several producers. -/
theorem C61_single_accesses_ordered_partial {k : Nat} (hk : k ≤ 30) {G : List Nat} (hG : G ≠ []) {v : V} {s s' : St V} (h : Reach k G v s) :
    (∀ x w, step k G s (.write x w) = some s' → s.mem.WriteOrdered 0 (slotIdx k x)) ∧
    (∀ c, step k G s (.read c) = some s' → ∃ x w, s'.log c = (x, w) :: s.log c ∧ s.mem.ReadOrdered (c + 1) (slotIdx k x)) := by
  obtain ⟨h1, h2⟩ := C61_single_no_race_partial hk hG h
  constructor
  · intro x w hs
    simp only [step] at hs
    split at hs
    · next hx => exact h1 x hx.1 hx.2
    · cases hs
  · intro c hs
    simp only [step] at hs
    split at hs
    · next nx av hc =>
      split at hs
      · next w mem _ => cases hs; exact ⟨nx, w, by simp, h2 c nx av hc⟩
      · cases hs
    · cases hs

/-- Single producer: what a handler reads for a sequence is the value the producer wrote for that sequence, and the sequence has been published.
Missing: several producers (Props/RaMulti.lean). -/
theorem C61_single_right_value_partial {k : Nat} (hk : k ≤ 30) {G : List Nat} (hG : G ≠ []) {v : V} {s : St V} (h : Reach k G v s)
    {c : Nat} {x : Int} {w : V} (hl : (x, w) ∈ s.log c) : x ≤ s.cur ∧ ∀ w', s.val x = some w' → w = w' :=
  (h.inv hk hG).logs c x w hl

/-- A run with two processors on a ring of two slots in which loads return stale values: the producer claims sequence 2 only after acquiring the
sequences of both processors; processor 1 first reads the old cursor. -/
def exampleRun : List (Act Nat) :=
  [.call 1, .write 0 10, .publish 0, .call 1, .write 1 11, .publish 1,
   .look 0 2, .advance 0, .read 0, .finish 0, .advance 0, .read 0, .finish 0, .advance 0,
   .look 1 0, .look 1 1, .advance 1, .read 1, .finish 1, .advance 1,
   .call 1, .scan 0, .scan 0, .decide true, .scan 1, .scan 1, .decide true, .write 2 12, .publish 2, .look 1 3, .advance 1, .read 1]

theorem C61_example : (run 1 [0, 1] (.init 0) exampleRun).map (fun s => (s.log 0, s.log 1, s.cur, s.cp 1)) =
    some ([(1, 11), (0, 10)], [(1, 11), (0, 10)], 2, .handle 1 2) := by decide +kernel

/-- The check against stale sequences matters: with the old sequence of processor 1 the claim of sequence 2 is refused. -/
theorem C61_example_stale : (run 1 [0, 1] (.init 0) (exampleRun.take 23 ++ [.decide true, .write 2 12])).isNone := by decide +kernel

end Verif.RaRing
