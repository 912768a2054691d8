import Verif.Lemmas.RaChain

/-!
C61: memory orders, for a pipeline: processors that wait for one another, whose handlers may change the event they are given.  As in Props/RaRing.lean every access
to a slot must be ordered after all conflicting accesses by other threads, whatever values the loads return, stale ones included.
-/

namespace Verif.RaChain
open Verif Verif.Disr Verif.RA

variable {V : Type}

/-- No data race on a slot: a write (or read) of the producer to the slot of a sequence that it has claimed and not published, and a write (or read) of a handler to
the slot of the sequence it is given, are ordered after every earlier read and write of that slot by any thread.
Missing: several producers (Props/RaMulti.lean). -/
theorem C61_chain_no_race_partial {k N : Nat} (hk : k ≤ 30) (hN : 1 ≤ N) {v : V} {s : St V} (h : Reach k N v s) :
    (∀ x, s.cur < x → x ≤ s.nextVal → s.mem.WriteOrdered 0 (slotIdx k x)) ∧
    (∀ j nx av, s.cp j = .handle nx av → s.mem.WriteOrdered j (slotIdx k nx)) := by
  have hi := h.inv hk hN
  obtain ⟨_, c2, _⟩ := hi.cached_le
  refine ⟨fun x h1 h2 => ?_, fun j nx av hc => ?_⟩
  · exact hi.core.owns (Nat.zero_le _) (by simp [Df]; exact h1) (by simp [Af]; omega)
  · obtain ⟨_, p2, p3, _, p5⟩ := hi.handling hc
    exact hi.core.owns p2 p3 p5

/-- The same for the accesses themselves: whenever a step writes to or reads from a slot, the thread is ordered after every earlier access to it.
Missing: several producers. -/
theorem C61_chain_accesses_ordered_partial {k N : Nat} (hk : k ≤ 30) (hN : 1 ≤ N) {v : V} {s s' : St V} (h : Reach k N v s) :
    (∀ x w, step k N s (.write x w) = some s' → s.mem.WriteOrdered 0 (slotIdx k x)) ∧
    (∀ x, step k N s (.peek x) = some s' → s.mem.WriteOrdered 0 (slotIdx k x)) ∧
    (∀ j, step k N s (.read j) = some s' → ∃ x w, s'.log j = (x, w) :: s.log j ∧ s.mem.WriteOrdered j (slotIdx k x)) ∧
    (∀ j w, step k N s (.change j w) = some s' → ∃ x, s'.cont x = some w ∧ s.mem.WriteOrdered j (slotIdx k x)) := by
  obtain ⟨h1, h2⟩ := C61_chain_no_race_partial hk hN h
  refine ⟨?_, ?_, ?_, ?_⟩
  · intro x w hs
    simp only [step] at hs
    split at hs
    · next hx => exact h1 x hx.1 hx.2
    · cases hs
  · intro x hs
    simp only [step] at hs
    split at hs
    · next hx => exact h1 x hx.1 hx.2
    · cases hs
  · intro j hs
    simp only [step] at hs
    split at hs
    · next nx av hc =>
      split at hs
      · next w mem _ => cases hs; exact ⟨nx, w, by simp, h2 j nx av hc⟩
      · cases hs
    · cases hs
  · intro j w hs
    simp only [step] at hs
    split at hs
    · next nx av hc => cases hs; exact ⟨nx, by simp, h2 j nx av hc⟩
    · cases hs

/-- What a handler reads is the value last written into that very sequence, by the producer or by a handler that had it before; so a processor sees what the one
before it has made of the event.
Missing: several producers. -/
theorem C61_chain_right_value_partial {k N : Nat} (hk : k ≤ 30) (hN : 1 ≤ N) {v : V} {s s' : St V} (h : Reach k N v s) {j : Nat} (hs : step k N s (.read j) = some s') :
    ∃ x w, s'.log j = (x, w) :: s.log j ∧ x ≤ s.cur ∧ ∀ w', s.cont x = some w' → w = w' := by
  have hi := h.inv hk hN
  simp only [step] at hs
  split at hs
  · next nx av hc =>
    split at hs
    · next w mem hr =>
      cases hs
      obtain ⟨p1, p2, p3, p4, p5⟩ := hi.handling hc
      obtain ⟨hv, -⟩ := Mem.read_some hr
      have h1 := hi.core.A_le (i := j) (j := 0) p1 (by omega)
      have h2 := hi.core.D_ge p2
      have h3 : Df s 0 = s.cur := by simp [Df]
      have h4 : Pf k N s (N + 1) = s.nextVal + 1 - 2 ^ k := by simp [Pf]
      refine ⟨nx, w, by simp, by omega, fun w' hw' => ?_⟩
      have := hi.contTop nx w' (by omega) hw'
      rw [hv] at this
      exact Option.some.inj this
    · cases hs
  · cases hs

/-- Nobody works on the slot of another: two handlers that run at the same time have different slots, the one further down the pipeline an earlier sequence; and
neither has the slot of a sequence that the producer has claimed and not published.
Missing: several producers. -/
theorem C61_chain_exclusive_partial {k N : Nat} (hk : k ≤ 30) (hN : 1 ≤ N) {v : V} {s : St V} (h : Reach k N v s) :
    (∀ i j x y a b, i < j → s.cp i = .handle x a → s.cp j = .handle y b → y < x ∧ slotIdx k x ≠ slotIdx k y) ∧
    (∀ j x a z, s.cp j = .handle x a → s.cur < z → z ≤ s.nextVal → x < z ∧ slotIdx k x ≠ slotIdx k z) := by
  have hi := h.inv hk hN
  obtain ⟨c1, c2, c3⟩ := hi.cached_le
  have after : ∀ j, j ≤ N → ∀ y, Df s j < y → Pf k N s (j + 1) ≤ y := by
    intro j hj y hy
    have := hi.core.ordA j hj
    omega
  constructor
  · intro i j x y a b hij hx hy
    obtain ⟨p1, p2, p3, p4, p5⟩ := hi.handling hx
    obtain ⟨q1, q2, q3, q4, q5⟩ := hi.handling hy
    have h1 := hi.core.A_le (i := j) (j := i) hij (by omega)
    exact ⟨by omega, (hi.core.apart hk p2 p3 p4 p5 q2 (after j q2 y q3) (.inl ⟨by omega, q5⟩)).symm⟩
  · intro j x a z hx hz1 hz2
    obtain ⟨p1, p2, p3, p4, p5⟩ := hi.handling hx
    have h0 : Df s 0 = s.cur := by simp [Df]
    have ha : Af k N s 0 = s.cached + 2 ^ k := by simp [Af]
    have h1 := hi.core.A_le (i := j) (j := 0) p1 (by omega)
    exact ⟨by omega, (hi.core.apart hk p2 p3 p4 p5 (Nat.zero_le _) (after 0 (Nat.zero_le _) z (by omega)) (.inl ⟨by omega, by omega⟩)).symm⟩

/-- Every processor handles only what all the ones before it have done, and the producer takes a slot again only when the last one has finished with it: in any state
the sequences finished along the pipeline decrease, by at most the size of the ring.
Missing: several producers. -/
theorem C61_chain_order_partial {k N : Nat} (hk : k ≤ 30) (hN : 1 ≤ N) {v : V} {s : St V} (h : Reach k N v s) {i j : Nat} (h1 : 1 ≤ i) (hij : i ≤ j) (hj : j ≤ N) :
    (s.cp j).done ≤ (s.cp i).done ∧ (s.cp i).done ≤ s.cur ∧ s.cur ≤ s.nextVal ∧ s.nextVal - 2 ^ k ≤ (s.cp j).done := by
  have hi := h.inv hk hN
  have a1 := hi.core.D_mono hij hj
  have a2 := hi.core.D_mono (a := 0) (b := i) (Nat.zero_le _) (by omega)
  have a3 := hi.core.D_ge hj
  rw [Df_stage h1, Df_stage (by omega)] at a1
  rw [Df_stage h1] at a2
  rw [Df_stage (by omega)] at a3
  have h0 : Df s 0 = s.cur := by simp [Df]
  have h4 : Pf k N s (N + 1) = s.nextVal + 1 - 2 ^ k := by simp [Pf]
  have := hi.cached_le
  omega

/-- A run of two processors on a ring of two slots with stale loads: processor 1 reads sequence 0 and changes it, processor 2 first sees an old sequence of processor 1,
then reads what processor 1 made of the event; the producer, which first sees an old sequence of processor 2, takes the slot again. -/
def exampleRun : List (Act Nat) :=
  [.call 1, .write 0 10, .publish 0, .call 1, .write 1 11, .publish 1,
   .look 1 0, .look 1 1, .advance 1, .read 1, .change 1 20, .finish 1, .advance 1,
   .look 2 0, .look 2 1, .advance 2, .read 2, .change 2 30, .finish 2, .advance 2,
   .look 1 2, .advance 1, .read 1, .throw 1,
   .call 1, .scan 0 true, .scan 1 true, .peek 2, .write 2 12, .publish 2,
   .look 2 2, .advance 2, .read 2]

theorem C61_chain_example : (run 1 2 (.init 0) exampleRun).map (fun s => (s.log 1, s.log 2, s.cur, s.cp 1, s.cp 2)) =
    some ([(1, 11), (0, 10)], [(1, 11), (0, 20)], 2, .wait 2, .handle 1 1) := by decide +kernel

/-- With the old sequence of processor 2 the producer is refused. -/
theorem C61_chain_example_stale : ((run 1 2 (.init 0) (exampleRun.take 26)).map (fun s => (s.nextVal, s.pp)) = some (1, .want 1)) := by decide +kernel

/-- In this state two handlers are at work, and the producer holds a claimed sequence: the theorems apply to it. -/
theorem C61_chain_example_two :
    (run 2 2 (.init 0) [.call 1, .write 0 10, .publish 0, .call 1, .write 1 11, .publish 1, .call 1, .look 1 1, .advance 1, .finish 1, .advance 1, .look 1 2, .advance 1,
      .look 2 1, .advance 2]).map (fun s => (s.cp 1, s.cp 2, s.cur, s.nextVal)) = some (.handle 1 1, .handle 0 0, 1, 2) := by decide +kernel

/-- An execution from one state to another, all of whose actions satisfy `q`. -/
inductive Path (k N : Nat) (q : St V → Act V → Prop) : St V → St V → Prop
  | nil (s : St V) : Path k N q s s
  | cons {s s' s'' : St V} (a : Act V) : q s a → step k N s a = some s' → Path k N q s' s'' → Path k N q s s''

theorem done_mono {k N : Nat} {s s' : St V} {a : Act V} (hs : step k N s a = some s') (i : Nat) : Df s i ≤ Df s' i := by
  have keep : s'.cur = s.cur → s'.cp = s.cp → Df s i ≤ Df s' i := by
    intro h1 h2; simp only [Df, h1, h2]; exact Int.le_refl _
  have one : ∀ j p, s'.cur = s.cur → s'.cp = upd s.cp j p → (s.cp j).done ≤ p.done → Df s i ≤ Df s' i := by
    intro j p h1 h2 h3
    simp only [Df, h1, h2, upd_apply]
    (repeat' split) <;> first | exact Int.le_refl _ | (subst_vars; exact h3)
  cases a with
  | call n => simp only [step] at hs; (repeat' split at hs) <;> first | (cases hs; exact keep rfl rfl) | cases hs
  | scan m again =>
    simp only [step] at hs
    split at hs
    · split at hs
      · next q mem _ =>
        generalize (if q < s.nextVal then q else s.nextVal) = mm at hs
        (repeat' split at hs) <;> (cases hs; exact keep rfl rfl)
      · cases hs
    · cases hs
  | write x v => simp only [step] at hs; split at hs <;> cases hs; exact keep rfl rfl
  | peek x => simp only [step] at hs; (repeat' split at hs) <;> first | (cases hs; exact keep rfl rfl) | cases hs
  | publish x =>
    simp only [step] at hs
    split at hs <;> cases hs
    next hx =>
    simp only [Df]
    split
    · omega
    · exact Int.le_refl _
  | look j m =>
    simp only [step] at hs
    split at hs
    · next nx hc =>
      split at hs
      · split at hs
        · split at hs <;> cases hs
          · exact keep rfl rfl
          · exact one j _ rfl rfl (by rw [hc]; exact Int.le_refl _)
        · cases hs
      · cases hs
    · cases hs
  | advance j =>
    simp only [step] at hs
    split at hs
    · next nx av hc => split at hs <;> cases hs <;> exact one j _ rfl rfl (by rw [hc]; exact Int.le_refl _)
    · cases hs
  | read j => simp only [step] at hs; (repeat' split at hs) <;> first | (cases hs; exact keep rfl rfl) | cases hs
  | change j v => simp only [step] at hs; split at hs <;> cases hs; exact keep rfl rfl
  | finish j =>
    simp only [step] at hs
    split at hs <;> cases hs
    next nx av hc => exact one j _ rfl rfl (by rw [hc]; simp only [CPc.done]; omega)
  | throw j =>
    simp only [step] at hs
    split at hs <;> cases hs
    next nx av hc => exact one j _ rfl rfl (by rw [hc]; simp only [CPc.done]; omega)

theorem Path.done_mono {k N : Nat} {q : St V → Act V → Prop} {s s' : St V} (h : Path k N q s s') (i : Nat) : Df s i ≤ Df s' i := by
  induction h with
  | nil => exact Int.le_refl _
  | cons a _ hs _ ih => exact Int.le_trans (RaChain.done_mono hs i) ih

theorem Path.reach {k N : Nat} {q : St V → Act V → Prop} {v : V} {s s' : St V} (hr : Reach k N v s) (h : Path k N q s s') : Reach k N v s' := by
  induction h with
  | nil => exact hr
  | cons a _ hs _ ih => exact ih (.step a hr hs)

/-- Stages `j` and `j + 1` (the producer being stage 0) do not write to sequence `x` in this action. -/
def Leaves (j : Nat) (x : Int) (t : St V) (a : Act V) : Prop :=
  (∀ v, j = 0 → a ≠ .write x v) ∧ ∀ i v b, i = j ∨ i = j + 1 → a = .change i v → t.cp i ≠ .handle x b

/-- Between stage `j` and stage `j + 1` nobody else gets at the event. -/
theorem Path.kept {k N : Nat} (hk : k ≤ 30) (hN : 1 ≤ N) {v w : V} {j : Nat} {x : Int} {s s' : St V} (hr : Reach k N v s) (hw : s.cont x = some w)
    (hb : ∀ i < j, x ≤ Df s i) (h : Path k N (Leaves j x) s s') (he : Df s' (j + 1) < x) : s'.cont x = some w := by
  induction h with
  | nil => exact hw
  | @cons s t s'' a hq hs hp ih =>
    have hi := hr.inv hk hN
    have he' : Df s (j + 1) < x := by
      have h1 := RaChain.done_mono hs (j + 1)
      have h2 := hp.done_mono (j + 1)
      omega
    refine ih (.step a hr hs) ?_ (fun i hij => Int.le_trans (hb i hij) (RaChain.done_mono hs i)) he
    cases a with
    | write y u =>
      simp only [step] at hs
      split at hs <;> cases hs
      next hy =>
      have hne : x ≠ y := by
        rintro rfl
        rcases Nat.eq_zero_or_pos j with h0 | h0
        · exact hq.1 u h0 rfl
        · have := hb 0 h0
          simp only [Df] at this
          simp at this
          omega
      exact (upd_other _ _ hne).trans hw
    | change i u =>
      simp only [step] at hs
      split at hs <;> cases hs
      next nx av hc =>
      obtain ⟨p1, p2, p3, p4, p5⟩ := hi.handling hc
      have hne : x ≠ nx := by
        rintro rfl
        rcases Nat.lt_or_ge i j with h1 | h1
        · have := hb i h1; omega
        · rcases Nat.lt_or_ge (j + 1) i with h2 | h2
          · have := hi.core.A_le h2 (by omega); omega
          · exact hq.2 i u av (by omega) rfl hc
      exact (upd_other _ _ hne).trans hw
    | call n => simp only [step] at hs; (repeat' split at hs) <;> first | (cases hs; exact hw) | cases hs
    | scan m again =>
      simp only [step] at hs
      split at hs
      · split at hs
        · next q mem _ =>
          generalize (if q < s.nextVal then q else s.nextVal) = mm at hs
          (repeat' split at hs) <;> (cases hs; exact hw)
        · cases hs
      · cases hs
    | peek x => simp only [step] at hs; (repeat' split at hs) <;> first | (cases hs; exact hw) | cases hs
    | publish x => simp only [step] at hs; split at hs <;> cases hs; exact hw
    | look j m => simp only [step] at hs; (repeat' split at hs) <;> first | (cases hs; exact hw) | cases hs
    | advance j => simp only [step] at hs; (repeat' split at hs) <;> first | (cases hs; exact hw) | cases hs
    | read j => simp only [step] at hs; (repeat' split at hs) <;> first | (cases hs; exact hw) | cases hs
    | finish j => simp only [step] at hs; split at hs <;> cases hs; exact hw
    | throw j => simp only [step] at hs; split at hs <;> cases hs; exact hw

/-- What a read logs when the content of the sequence is known. -/
theorem read_logs {k N : Nat} (hk : k ≤ 30) (hN : 1 ≤ N) {v w : V} {s s' : St V} (h : Reach k N v s) {j : Nat} {x b : Int} (hc : s.cp j = .handle x b)
    (hw : s.cont x = some w) (hs : step k N s (.read j) = some s') : s'.log j = (x, w) :: s.log j := by
  obtain ⟨y, u, h1, _, h3⟩ := C61_chain_right_value_partial hk hN h hs
  have hy : y = x := by
    simp only [step, hc] at hs
    split at hs
    · cases hs
      simp only [upd_same] at h1
      exact ((Prod.mk.inj (List.cons.inj h1).1).1).symm
    · cases hs
  subst hy
  rw [h1, h3 w hw]

/-- Hand-over from one processor to the next: the value a handler leaves in the event (its own, or the one it found and did not change) is the value the next
processor reads when it is given that sequence, whatever all the other threads do in between and whatever their loads return, as long as the two do not change the
event themselves meanwhile.
Missing: several producers. -/
theorem C61_chain_handed_on_partial {k N : Nat} (hk : k ≤ 30) (hN : 1 ≤ N) {v w : V} {s s' s'' : St V} (h : Reach k N v s) {j : Nat} {x a b : Int}
    (hj : s.cp j = .handle x a) (hw : s.cont x = some w) (hp : Path k N (Leaves j x) s s') (hn : s'.cp (j + 1) = .handle x b)
    (hs : step k N s' (.read (j + 1)) = some s'') : s''.log (j + 1) = (x, w) :: s'.log (j + 1) := by
  obtain ⟨p1, p2, p3, p4, p5⟩ := (h.inv hk hN).handling hj
  have hr := hp.reach h
  obtain ⟨q1, q2, q3, q4, q5⟩ := (hr.inv hk hN).handling hn
  refine read_logs hk hN hr hn (Path.kept hk hN h hw (fun i hij => ?_) hp q3) hs
  have := (h.inv hk hN).core.A_le (i := j) (j := i) hij (by omega)
  omega

/-- Hand-over from the producer to the first processor: the value left in a claimed sequence is what the first processor reads.
Missing: several producers. -/
theorem C61_chain_first_reads_partial {k N : Nat} (hk : k ≤ 30) (hN : 1 ≤ N) {v w : V} {s s' s'' : St V} (h : Reach k N v s) {x b : Int}
    (hw : s.cont x = some w) (hp : Path k N (Leaves 0 x) s s') (hn : s'.cp 1 = .handle x b)
    (hs : step k N s' (.read 1) = some s'') : s''.log 1 = (x, w) :: s'.log 1 := by
  have hr := hp.reach h
  obtain ⟨q1, q2, q3, q4, q5⟩ := (hr.inv hk hN).handling hn
  exact read_logs hk hN hr hn (Path.kept hk hN h hw (fun i hi => absurd hi (by omega)) hp q3) hs

/-- Both hand-overs happen in `exampleRun`: 10 from the producer to processor 1, 20 from processor 1 to processor 2. -/
theorem C61_chain_example_handed_on :
    (run 1 2 (.init 0) (exampleRun.take 11)).map (fun s => (s.cp 1, s.cont 0)) = some (.handle 0 0, some 20) ∧
    (run 1 2 (.init 0) (exampleRun.take 17)).map (fun s => (s.cp 2, s.cont 0, s.log 2)) = some (.handle 0 0, some 20, [(0, 20)]) := by decide +kernel

end Verif.RaChain
