import Verif.Lemmas.MemLive

/-! C75: the in-memory middleware delivers what it accepted, and a blocking `publish` returns. -/

namespace Verif.MemP
open Verif Verif.SQ Verif.Fair

variable {T : Type} {d : Bool} {n : Nat} {σ : Nat → St T} {α : Nat → Option (Act T)}

/-- C75, bookkeeping, in every reachable state: the accepted events are, in order, those that left the queue and then those still in it; the
events that left the queue and were not discarded are, in order, those given to the listeners and then the one in the hand of the poller (at
most one); the discarded ones are counted (some of them by a `publish` that has not yet returned); a blocking middleware discards nothing. -/
theorem C75_flow {s : St T} (h : Reach d n s) :
    s.came = s.left.map (·.1) ++ s.bm.sq.q ∧ s.bm.emitted ++ s.bm.hand = (s.left.filter (·.2)).map (·.1) ∧ s.bm.hand.length ≤ 1 ∧
    (s.left.filter (!·.2)).length = s.bm.discarded + (s.bm.pend.map (·.2)).sum ∧ (d = false → s.bm.emitted ++ s.bm.hand ++ s.bm.sq.q = s.came) := by
  have hi := h.inv
  refine ⟨hi.flow, hi.out, hi.one, hi.lost, fun hd => ?_⟩
  have : s.left.filter (·.2) = s.left := List.filter_eq_self.mpr (hi.blk hd)
  rw [hi.out, this, hi.flow]

/-- C75, delivery: if the polling loop runs, no listener throws and its thread is scheduled again and again, then every event accepted up to
time `i` leaves the queue, and all of them that are not discarded have been given to the listeners, in the order of acceptance. -/
theorem C75_delivered (h : Run d n σ α) {i : Nat} (ha : PollAlive σ α i) :
    ∃ j, i ≤ j ∧ ((σ j).left.take (σ i).came.length).map (·.1) = (σ i).came ∧
      (((σ j).left.take (σ i).came.length).filter (·.2)).map (·.1) <+: (σ j).bm.emitted := by
  obtain ⟨j, hj, hl⟩ := h.drain ha
  obtain ⟨k, hk, hp⟩ := h.emits (ha.later h hj)
  have hjk := h.left_mono hk
  have e : (σ k).left.take (σ i).came.length = (σ j).left.take (σ i).came.length := by
    obtain ⟨r, hr⟩ := hjk
    rw [← hr, List.take_append_of_le_length hl]
  refine ⟨k, Nat.le_trans hj hk, ?_, ?_⟩
  · rw [e]
    obtain ⟨r, hr⟩ := h.came_mono hj
    have h1 := (h.inv j).flow
    rw [← hr] at h1
    have h2 := congrArg (List.take (σ i).came.length) h1
    rw [List.take_append_of_le_length (Nat.le_refl _), List.take_length, List.take_append_of_le_length (by simpa using hl)] at h2
    rw [List.map_take]; exact h2.symm
  · rw [e]
    refine List.IsPrefix.trans ?_ hp
    rw [(h.inv j).out]
    refine List.IsPrefix.map _ ?_
    exact List.IsPrefix.filter _ (List.take_prefix _ _)

/-- C75, delivery with a blocking middleware: every accepted event reaches the listeners, in the order of acceptance. -/
theorem C75_blocking_delivered (h : Run false n σ α) {i : Nat} (ha : PollAlive σ α i) : ∃ j, i ≤ j ∧ (σ i).came <+: (σ j).bm.emitted := by
  obtain ⟨j, hj, h1, h2⟩ := C75_delivered h ha
  refine ⟨j, hj, ?_⟩
  rw [List.filter_eq_self.mpr (fun x hx => (h.inv j).blk rfl x (List.mem_of_mem_take hx)), h1] at h2
  exact h2

/-- C75, progress of publishers: while a `publish` waits for room in a blocking middleware, some event is accepted later. -/
theorem C75_some_publication_accepted (h : Run false n σ α) (hn : 0 < n) {i : Nat} (ha : PollAlive σ α i) (hp : PubFair σ α)
    (hw : (σ i).waiting ≠ []) : ∃ j, i ≤ j ∧ (σ i).came.length < (σ j).came.length :=
  h.accepts hn ha hp (by
    have := List.length_pos_iff.mpr hw
    simpa [St.waiting, wcount] using this)

/-- C75, a blocking `publish` returns: when no further `publish` is called, all waiting calls return.
Missing: with other threads that go on publishing, a particular call may wait for ever (`C75_violation_starvation`): the queue gives no place in
turn. -/
theorem C75_publish_returns_partial (h : Run false n σ α) (hn : 0 < n) {i : Nat} (ha : PollAlive σ α i) (hp : PubFair σ α)
    (hq : ∀ j, i ≤ j → ∀ t x p, α j ≠ some (.bm (.publish t x p))) : ∃ j, i ≤ j ∧ (σ j).waiting = [] := by
  have key : ∀ m k, i ≤ k → wcount (σ k).bm.sq ≤ m → ∃ j, i ≤ j ∧ wcount (σ j).bm.sq = 0 := by
    intro m
    induction m with
    | zero => exact fun k hk hm => ⟨k, hk, Nat.le_zero.mp hm⟩
    | succ m ih =>
      intro k hk hm
      by_cases h0 : wcount (σ k).bm.sq = 0
      · exact ⟨k, hk, h0⟩
      obtain ⟨j, hj, hl⟩ := h.accepts hn (ha.later h hk) hp (Nat.pos_of_ne_zero h0)
      have sum : ∀ j, k ≤ j → wcount (σ j).bm.sq + (σ j).came.length = wcount (σ k).bm.sq + (σ k).came.length := by
        intro j hj
        induction hj with
        | refl => rfl
        | step hm ih =>
          rename_i l
          rcases h.next l with ⟨_, e⟩ | ⟨a, h1, e⟩
          · rw [e]; exact ih
          · have h2 := (wprog e).count
            have h3 : isPublish a = 0 := by
              unfold isPublish
              split
              · next t x p => exact absurd h1 (hq l (Nat.le_trans hk hm) t x p)
              · rfl
            show wcount (σ (l + 1)).bm.sq + (σ (l + 1)).came.length = _
            omega
      have := sum j hj
      exact ih j (Nat.le_trans hk hj) (by omega)
  obtain ⟨j, hj, h0⟩ := key _ i (Nat.le_refl _) (Nat.le_refl _)
  refine ⟨j, hj, List.eq_nil_of_length_eq_zero ?_⟩
  simpa [St.waiting, wcount] using h0

/-! ### A publisher that starves -/

/-- Thread 2 waits in `publish(20)` on a queue with one place, which is full. -/
def stuckBase (e c : List Nat) (l : List (Nat × Bool)) (h q : List Nat) (wnf knf : List (Nat × Nat)) : St Nat :=
  ⟨⟨⟨q, 1, [], [], wnf, knf⟩, 0, [], h, e⟩, true, c, l⟩

/-- What has been delivered after `k` rounds. -/
def rounds (k : Nat) : List Nat := List.replicate k 10

/-- The execution: the poller takes the event and wakes thread 2; before thread 2 gets the mutex, thread 1 publishes; thread 2 waits again; the
poller calls the listeners. -/
def starveσ (i : Nat) : St Nat :=
  let k := i / 4
  match i % 4 with
  | 0 => stuckBase (rounds k) (rounds (k + 1)) ((rounds k).map (·, true)) [] [10] [(2, 20)] []
  | 1 => stuckBase (rounds k) (rounds (k + 1)) ((rounds (k + 1)).map (·, true)) [10] [] [] [(2, 20)]
  | 2 => stuckBase (rounds k) (rounds (k + 2)) ((rounds (k + 1)).map (·, true)) [10] [10] [] [(2, 20)]
  | _ => stuckBase (rounds k) (rounds (k + 2)) ((rounds (k + 1)).map (·, true)) [10] [10] [(2, 20)] []

def starveα (i : Nat) : Option (Act Nat) :=
  match i % 4 with
  | 0 => some (.bm (.poll 5 0))
  | 1 => some (.bm (.publish 1 10 0))
  | 2 => some (.bm (.wake (.resumeNF 0 0)))
  | _ => some (.bm .emit)

theorem rounds_succ (k : Nat) : rounds (k + 1) = rounds k ++ [10] := by
  simp [rounds, List.replicate_succ']

theorem starve_exec : Exec (step false) starveσ starveα := by
  intro i
  have hm : i % 4 = 0 ∨ i % 4 = 1 ∨ i % 4 = 2 ∨ i % 4 = 3 := by omega
  rcases hm with hm | hm | hm | hm
  · have h1 : (i + 1) % 4 = 1 := by omega
    have h2 : (i + 1) / 4 = i / 4 := by omega
    simp only [starveα, starveσ, hm, h1, h2, rounds_succ (i / 4)]
    simp [stuckBase, step, byPoller, BM.step, SQ.step, SQ.busy, bodyTimedPop, takeFront, notifyNF, BM.absorb, putIn, outs, Ev.ins, BM.poller]
  · have h1 : (i + 1) % 4 = 2 := by omega
    have h2 : (i + 1) / 4 = i / 4 := by omega
    simp only [starveα, starveσ, hm, h1, h2, rounds_succ (i / 4 + 1)]
    simp [stuckBase, step, byPoller, BM.step, SQ.step, SQ.busy, bodyPush, notifyNE, BM.absorb, putIn, outs, Ev.ins, BM.poller]
  · have h1 : (i + 1) % 4 = 3 := by omega
    have h2 : (i + 1) / 4 = i / 4 := by omega
    simp only [starveα, starveσ, hm, h1, h2]
    simp [stuckBase, step, byPoller, BM.step, SQ.step, BM.isWake, bodyPush, BM.absorb, putIn]
  · have h1 : (i + 1) % 4 = 0 := by omega
    have h2 : (i + 1) / 4 = i / 4 + 1 := by omega
    simp only [starveα, starveσ, hm, h1, h2]
    simp [stuckBase, step, byPoller, BM.step, rounds_succ (i / 4), putIn]

/-- C75 fails for a single publisher: in a fair execution with a running poller and calm listeners, thread 2 waits in `publish` for ever while
thread 1 publishes again and again. -/
theorem C75_violation_starvation : ∃ (σ : Nat → St Nat) (α : Nat → Option (Act Nat)), Run false 1 σ α ∧ PollAlive σ α 0 ∧ PubFair σ α ∧
    (∀ i, (2, 20) ∈ (σ i).waiting) ∧ ∀ i, ∃ j, i ≤ j ∧ α j = some (.bm (.publish 1 10 0)) := by
  refine ⟨starveσ, starveα, ⟨?_, starve_exec⟩, ⟨rfl, ?_, ?_⟩, ?_, ?_, ?_⟩
  · refine .step (a := .bm (.publish 2 20 0)) (.step (a := .bm (.publish 1 10 0)) .init rfl) rfl
  · intro j _
    unfold starveα
    split <;> nofun
  · intro i _
    refine ⟨4 * i, by omega, .bm (.poll 5 0), ?_, trivial⟩
    simp [starveα]
  · intro i _
    refine ⟨4 * i + 2, by omega, .bm (.wake (.resumeNF 0 0)), ?_, trivial⟩
    have : (4 * i + 2) % 4 = 2 := by omega
    simp [starveα, this]
  · intro i
    simp only [starveσ]
    split <;> simp [St.waiting, stuckBase]
  · intro i
    refine ⟨4 * i + 1, by omega, ?_⟩
    have : (4 * i + 1) % 4 = 1 := by omega
    simp [starveα, this]

/-! ### A listener that throws -/

/-- A step of the ended middleware, without restart. -/
theorem dead_step {s s' : St T} {a : Act T} (hr : Reach d n s) (hd : s.alive = false) (hn : a ≠ .restart) (hs : step d s a = some s') :
    s'.alive = false ∧ s'.bm.emitted = s.bm.emitted ∧ s'.bm.sq.max = s.bm.sq.max ∧
    (d = false → n ≤ s.bm.sq.q.length → s'.bm.sq.q = s.bm.sq.q ∧ ∀ x ∈ s.waiting, x ∈ s'.waiting) := by
  obtain ⟨h1, h2⟩ := hr.dead hd
  have hi := hr.inv
  cases step_eff hs with
  | queue ha hb hturn hh hpub hpush hem e =>
    rename_i a b q' ev
    subst e
    obtain ⟨e1, _, e5, _⟩ := BM.absorb_spec { s.bm with sq := q' } ev
    have hnt : ¬ QTurn b := by
      intro ht
      rcases hh ht with ⟨_, h3⟩ | h3
      · rw [hd] at h3; cases h3
      · omega
    refine ⟨hd, e5, ?_, ?_⟩
    · dsimp only; rw [e1]; exact sq_max ha hb
    · intro hf hl
      subst hf
      have := sq_stay ha hnt (by rw [hi.max]; exact hl) hb
      dsimp only [St.waiting]
      rw [e1]
      exact this
  | account hx e => subst e; exact ⟨hd, rfl, rfl, fun _ _ => ⟨rfl, fun _ h => h⟩⟩
  | emit hx e => rw [h2] at hx; cases hx
  | throw hx e => rw [h2] at hx; cases hx
  | restart e => exact absurd rfl hn

/-- C75 fails after an exception of a listener.  The exception ends the polling loop and nobody notices: from then on, whatever happens without
a restart of the middleware, no event reaches a listener; and once the queue of a blocking middleware is full it stays as it is, every
`publish` that waits goes on waiting. -/
theorem C75_violation_throwing_listener {s s' : St T} (hr : Reach d n s) (hd : s.alive = false) (as : List (Act T)) (hn : .restart ∉ as)
    (hs : run d s as = some s') : s'.alive = false ∧ s'.bm.emitted = s.bm.emitted ∧
    (d = false → n ≤ s.bm.sq.q.length → s'.bm.sq.q = s.bm.sq.q ∧ ∀ x ∈ s.waiting, x ∈ s'.waiting) := by
  induction as generalizing s with
  | nil => simp only [run, Option.some.injEq] at hs; subst hs; exact ⟨hd, rfl, fun _ _ => ⟨rfl, fun _ h => h⟩⟩
  | cons a as ih =>
    simp only [run] at hs
    split at hs
    · cases hs
    next t ht =>
    have ha : a ≠ .restart := fun e => hn (by rw [e]; exact List.mem_cons_self)
    obtain ⟨h1, h2, h3, h4⟩ := dead_step hr hd ha ht
    obtain ⟨g1, g2, g3⟩ := ih (.step hr ht) h1 (fun h => hn (List.mem_cons_of_mem _ h)) hs
    refine ⟨g1, by rw [g2, h2], fun hf hl => ?_⟩
    obtain ⟨h5, h6⟩ := h4 hf hl
    obtain ⟨g5, g6⟩ := g3 hf (by rw [h5]; exact hl)
    exact ⟨by rw [g5, h5], fun x hx => g6 x (h6 x hx)⟩

/-- Runs from the initial state are reachable states. -/
theorem run_reach {s s' : St T} (hr : Reach d n s) (as : List (Act T)) (hs : run d s as = some s') : Reach d n s' := by
  induction as generalizing s with
  | nil => simp only [run, Option.some.injEq] at hs; subst hs; exact hr
  | cons a as ih =>
    simp only [run] at hs
    split at hs
    · cases hs
    next t ht => exact ih (.step hr ht) hs

/-- A case: the queue has one place; the listener throws on event 10; event 11 fills the queue and thread 2 waits with event 12: they stay. -/
theorem C75_example_throw : ∃ s : St Nat, Reach false 1 s ∧ s.alive = false ∧ s.bm.sq.q = [11] ∧ s.waiting = [(2, 12)] ∧ s.bm.emitted = [10] := by
  obtain ⟨s, h1, h2⟩ : ∃ s, run false (St.init 1) [.bm (.publish 1 10 0), .bm (.poll 5 0), .throw, .bm (.publish 1 11 0), .bm (.publish 2 12 0)] = some s ∧
      s.alive = false ∧ s.bm.sq.q = [11] ∧ s.waiting = [(2, 12)] ∧ s.bm.emitted = [10] := ⟨_, rfl, rfl, rfl, rfl, rfl⟩
  exact ⟨s, run_reach .init _ h1, h2⟩

/-! ### An execution that meets the hypotheses -/

/-- Two publishers on a queue with one place; then the poller asks an empty queue with waiting time zero, again and again. -/
def liveActs : List (Act Nat) :=
  [.bm (.publish 1 10 0), .bm (.publish 2 20 0), .bm (.poll 5 0), .bm (.wake (.resumeNF 0 0)), .bm .emit, .bm (.poll 5 0), .bm .emit]

def liveσ : Nat → St Nat
  | 0 => St.init 1
  | i + 1 => match step false (liveσ i) (liveActs.getD i (.bm (.poll 0 0))) with
    | some s => s
    | none => liveσ i

def liveα (i : Nat) : Option (Act Nat) := some (liveActs.getD i (.bm (.poll 0 0)))

theorem live_end (i : Nat) : liveσ (7 + i) = liveσ 7 := by
  induction i with
  | zero => rfl
  | succ i ih =>
    show liveσ (7 + i + 1) = _
    rw [liveσ, ih]
    have : liveActs.getD (7 + i) (.bm (.poll 0 0)) = .bm (.poll 0 0) := by
      have h : liveActs.length ≤ 7 + i := Nat.le_add_right 7 i
      rw [List.getD_eq_getElem?_getD, List.getElem?_eq_none h]
      rfl
    rw [this]
    rfl

/-- The hypotheses of the theorems above hold in this execution, with a publisher waiting at time 2. -/
theorem C75_example : ∃ (σ : Nat → St Nat) (α : Nat → Option (Act Nat)), Run false 1 σ α ∧ PollAlive σ α 2 ∧ PubFair σ α ∧
    (σ 2).waiting = [(2, 20)] ∧ (σ 2).came = [10] ∧ (∀ j, 2 ≤ j → ∀ t x p, α j ≠ some (.bm (.publish t x p))) ∧ (σ 7).bm.emitted = [10, 20] := by
  have hlate : ∀ i, 7 ≤ i → liveα i = some (.bm (.poll 0 0)) := by
    intro i hi
    unfold liveα
    have h : liveActs.length ≤ i := hi
    rw [List.getD_eq_getElem?_getD, List.getElem?_eq_none h]
    rfl
  refine ⟨liveσ, liveα, ⟨.init, ?_⟩, ⟨rfl, ?_, ?_⟩, ?_, rfl, rfl, ?_, rfl⟩
  · intro i
    by_cases hi : 7 ≤ i
    · rw [hlate i hi]
      obtain ⟨k, rfl⟩ : ∃ k, i = 7 + k := ⟨i - 7, by omega⟩
      show step false (liveσ (7 + k)) _ = some (liveσ (7 + (k + 1)))
      rw [live_end, live_end]
      rfl
    · have : i = 0 ∨ i = 1 ∨ i = 2 ∨ i = 3 ∨ i = 4 ∨ i = 5 ∨ i = 6 := by omega
      rcases this with rfl | rfl | rfl | rfl | rfl | rfl | rfl <;> rfl
  · intro j hj
    by_cases hi : 7 ≤ j
    · rw [hlate j hi]; nofun
    · have : j = 2 ∨ j = 3 ∨ j = 4 ∨ j = 5 ∨ j = 6 := by omega
      rcases this with rfl | rfl | rfl | rfl | rfl <;> nofun
  · intro i _
    exact ⟨7 + i, by omega, _, hlate _ (by omega), trivial⟩
  · intro i h
    have := h (7 + i) (by omega)
    rw [live_end] at this
    exact absurd rfl this
  · intro j hj
    by_cases hi : 7 ≤ j
    · rw [hlate j hi]; nofun
    · have : j = 2 ∨ j = 3 ∨ j = 4 ∨ j = 5 ∨ j = 6 := by omega
      rcases this with rfl | rfl | rfl | rfl | rfl <;> nofun

end Verif.MemP
