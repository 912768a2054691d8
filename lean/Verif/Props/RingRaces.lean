import Verif.Props.MultiRing
import Verif.Props.SingleRing

/-! Accesses to the memory of the rings by different threads (C57). -/

/-- A thread of the program. -/
inductive Verif.Thread where
  | producer (p : Nat)
  | processor (c : Nat)
  deriving DecidableEq, Repr

namespace Verif.MRing
open Verif Verif.Disr

variable {V : Type}

/-- A memory cell that is not atomic: an event slot (D4/ring_buffer.h `events_`) or an availability flag
(D4/multi_producer_sequencer.h:264 `int available_buffer_[]`). -/
inductive Cell where
  | slot (j : Nat)
  | flag (j : Nat)
  deriving DecidableEq, Repr

/-- The accesses a thread may make as its next step, `w` = writing: a producer writes the slot of a sequence it has claimed, or its flag when it
publishes it; a processor in a handler reads the slot; one looking for published sequences reads a flag. -/
inductive Access (k : Nat) (s : St V) : Thread → Cell → Bool → Prop
  | write {p x} : s.owner x = some p → Access k s (.producer p) (.slot (slotIdx k x)) true
  | publish {p x} : s.owner x = some p → Access k s (.producer p) (.flag (availIdx k x)) true
  | read {c x av} : s.cp c = .handle x av → Access k s (.processor c) (.slot (slotIdx k x)) false
  | scan {c nx hi i} : s.cp c = .scan nx hi i → i ≤ hi → Access k s (.processor c) (.flag (availIdx k i)) false

/-- The accesses are those of steps that can be made. -/
theorem C57_accesses_are_steps {k : Nat} {s : St V} {t : Thread} {m : Cell} {w : Bool} (h : Access k s t m w) :
    (∃ p x, t = .producer p ∧ ((m = .slot (slotIdx k x) ∧ ∀ v, ∃ s', step k s (.write p x v) = some s' ∧ s'.slot (slotIdx k x) = v) ∨
        (m = .flag (availIdx k x) ∧ ∃ s', step k s (.publish p x) = some s' ∧ s'.avail (availIdx k x) = availFlag k x))) ∨
    (∃ c, t = .processor c ∧ ((∃ s', step k s (.finish c) = some s') ∨ ∃ s', step k s (.scan c) = some s')) := by
  cases h with
  | @write p x h => exact Or.inl ⟨p, x, rfl, Or.inl ⟨rfl, fun v => by simp only [step, h, if_true]; exact ⟨_, rfl, upd_same _ _ _⟩⟩⟩
  | @publish p x h => exact Or.inl ⟨p, x, rfl, Or.inr ⟨rfl, by simp only [step, h, if_true]; exact ⟨_, rfl, upd_same _ _ _⟩⟩⟩
  | @read c x av h => exact Or.inr ⟨c, rfl, Or.inl (by simp only [step, h]; exact ⟨_, rfl⟩)⟩
  | @scan c nx hi i h hle =>
    refine Or.inr ⟨c, rfl, Or.inr ?_⟩
    simp only [step, h, hle, if_true]
    split <;> exact ⟨_, rfl⟩

/-- A data race: two threads may access the same cell next, one of them writing. -/
def Race (k : Nat) (s : St V) (m : Cell) : Prop := ∃ t t' w, t ≠ t' ∧ Access k s t m true ∧ Access k s t' m w

/-- **C57** for event slots: while every processor that runs is a gating one and there is at least one, no two threads access the same event slot
at the same time, one of them writing.
Missing: the flags, `C57_violation_flags`; rings without a gating processor, `C57_violation_no_gating`. -/
theorem C57_slots_partial {k : Nat} (hk : k ≤ 30) {v : V} {s : St V} (h : Reach k v s) (hlim : s.cursor < (2 ^ 32 - 1) * 2 ^ k)
    (hg : s.gating ≠ []) (hrun : ∀ c, s.cp c ≠ .idle → c ∈ s.gating) (j : Nat) : ¬ Race k s (.slot j) := by
  have hi := h.inv hk hlim
  rintro ⟨t, t', w, hne, h1, h2⟩
  cases h1 with
  | @write p x hx =>
    obtain ⟨c0, hc0⟩ := List.exists_mem_of_ne_nil _ hg
    generalize hj : Cell.slot (slotIdx k x) = cell at h2
    cases h2 with
    | @write q y hy =>
      injection hj with hj
      have := C22_slot_exclusive hk h hlim hc0 hx hj.symm (hi.own_gt y q hy c0 hc0) (hi.own_rng y q hy).2
      subst this
      rw [hx] at hy
      cases hy
      exact hne rfl
    | publish hy => cases hj
    | @read c y av hy =>
      injection hj with hj
      have hc : c ∈ s.gating := hrun c (by rw [hy]; simp)
      have hcons := hi.cons c hc
      rw [hy] at hcons
      obtain ⟨g1, g2, g3, g4⟩ := hcons
      have := C22_slot_exclusive hk h hlim hc hx hj.symm g1 (by omega)
      subst this
      rw [g4 y g1 g2] at hx
      cases hx
    | scan hy => cases hj

/-- **C57** for flags, writes: no two producers write the same flag at the same time.
Missing: a processor that reads a flag while it is written, where it fails (`C57_violation_flags`). -/
theorem C57_flag_writes_partial {k : Nat} (hk : k ≤ 30) {v : V} {s : St V} (h : Reach k v s) (hlim : s.cursor < (2 ^ 32 - 1) * 2 ^ k)
    (hg : s.gating ≠ []) {p q j : Nat} (h1 : Access k s (.producer p) (.flag j) true) (h2 : Access k s (.producer q) (.flag j) true) : p = q := by
  have hi := h.inv hk hlim
  obtain ⟨c, hc⟩ := List.exists_mem_of_ne_nil _ hg
  cases h1 with
  | @publish _ x hx =>
    generalize hj : Cell.flag (availIdx k x) = cell at h2
    cases h2 with
    | write hy => cases hj
    | @publish _ y hy =>
      injection hj with hj
      have := hi.uniq hc (hi.own_gt x p hx c hc) (hi.own_rng x p hx).2 (hi.own_gt y q hy c hc) (hi.own_rng y q hy).2 (emod_of_idx hk hj)
      subst this
      rw [hx] at hy
      cases hy
      rfl

/-- **C57** fails for the flags: whenever a processor has got to a sequence that is claimed and not yet published, its reading of the flag races with
the publication. -/
theorem C57_violation_flags {k : Nat} {s : St V} {c p : Nat} {nx hi i : Int} (h : s.cp c = .scan nx hi i) (hle : i ≤ hi)
    (ho : s.owner i = some p) : Race k s (.flag (availIdx k i)) :=
  ⟨_, _, _, by simp, .publish ho, .scan h hle⟩

/-- Such states are reached by every run in which a processor looks at the cursor between claim and publication, for instance this one. -/
theorem C57_violation_flags_reached : (run 2 (St.init 'v') [.addGating 7, .run 7, .callNext 0 1, .pstep 0, .pstep 0, .pstep 0, .look 7]).map
    (fun s => (s.cp 7, s.owner 0)) = some (.scan 0 0 0, some 0) := by decide +kernel

/-- **C57** fails without a gating processor: two producers own sequences of the same slot. -/
theorem C57_violation_no_gating : (run 0 (St.init 'v') [.callNext 0 1, .pstep 0, .pstep 0, .pstep 0, .callNext 1 1, .pstep 1, .pstep 1, .pstep 1,
      .pstep 1, .pstep 1, .pstep 1, .pstep 1]).map (fun s => (s.owner 0, s.owner 1, slotIdx 0 0, slotIdx 0 1)) =
    some (some 0, some 1, 0, 0) := by decide +kernel

/-- A state that meets the hypotheses of the theorems: one producer writing 4, another 5, the processor handling 3, in a ring of four slots. -/
theorem C57_example : (run 2 (St.init 'v')
    ([.addGating 7, .callNext 0 4, .pstep 0, .pstep 0, .pstep 0, .publish 0 0, .publish 0 1, .publish 0 2, .publish 0 3, .run 7, .look 7,
      .scan 7, .scan 7, .scan 7, .scan 7, .scan 7, .advance 7, .finish 7, .advance 7, .finish 7, .advance 7, .throw 7, .look 7, .scan 7, .scan 7,
      .advance 7, .callNext 0 1, .pstep 0, .pstep 0, .pstep 0, .pstep 0, .pstep 0, .pstep 0, .pstep 0, .pstep 0,
      .callNext 1 1, .pstep 1, .pstep 1, .pstep 1])).map
    (fun s => (s.cp 7, s.owner 4, s.owner 5, s.gating)) = some (.handle 3 3, some 0, some 1, [7]) := by decide +kernel

end Verif.MRing

namespace Verif.SRing
open Verif Verif.Disr

variable {V : Type}

/-- The accesses to event slots (the only cells that are not atomic or private to the producer). -/
inductive Access (k : Nat) (s : St V) : Thread → Nat → Bool → Prop
  | write {x} : s.cursor < x → x ≤ s.nextVal → Access k s (.producer 0) (slotIdx k x) true
  | read {c x av} : s.cp c = .handle x av → Access k s (.processor c) (slotIdx k x) false

/-- **C57** for the single producer ring: if the running processors are gating ones, no slot is written by the producer while a processor reads it. -/
theorem C57_single_producer {k : Nat} (hk : k ≤ 30) {v : V} {s : St V} (h : Reach k v s) (hrun : ∀ c, s.cp c ≠ .idle → c ∈ s.gating) (j : Nat) :
    ¬ ∃ t t' w, t ≠ t' ∧ Access k s t j true ∧ Access k s t' j w := by
  have hi := h.inv hk
  rintro ⟨t, t', w, hne, h1, h2⟩
  cases h1 with
  | @write x hx hx' =>
    generalize hj : slotIdx k x = cell at h2
    cases h2 with
    | write => exact hne rfl
    | @read c y av hy =>
      have hc : c ∈ s.gating := hrun c (by rw [hy]; simp)
      have hcons := hi.cons c hc
      rw [hy] at hcons
      exact C21_claimed_slot_is_free hk h hc hx hx' (by have := hcons.1; omega) (by obtain ⟨_, g2, g3⟩ := hcons; omega) hj.symm

end Verif.SRing
