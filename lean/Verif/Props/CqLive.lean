import Verif.Lemmas.CqLive

/-! C77: the middleware on the concurrent queue delivers what it accepted, and `publish` returns. -/

namespace Verif.CqP
open Verif Verif.Fair

variable {T : Type} {d : Bool} {σ : Nat → St T} {α : Nat → Option (Act T)}

/-- C77, bookkeeping, in every reachable state: the accepted events are, in order, those that left the queue and then those still in it; those the
poller took are, in order, those given to the listeners and then the one in its hand (at most one, none after the loop has ended); a blocking
middleware loses none. -/
theorem C77_flow {s : St T} (h : Reach d s) :
    s.cq.published = s.cq.taken.map (·.2) ++ s.cq.q ∧ (s.cq.taken.filter (·.1.isNone)).map (·.2) = s.cq.emitted ++ s.cq.hand ∧
    s.cq.hand.length ≤ 1 ∧ (s.alive = false → s.cq.hand = []) ∧ (d = false → s.cq.published = s.cq.emitted ++ s.cq.hand ++ s.cq.q) := by
  have hi := h.inv
  refine ⟨hi.cq.split, hi.cq.poll, hi.cq.hand1, hi.dead, fun hd => ?_⟩
  have : s.cq.taken.filter (·.1.isNone) = s.cq.taken := List.filter_eq_self.mpr (fun e he => by simp [(hi.cq.block hd).1 e he])
  rw [← hi.cq.poll, this, hi.cq.split]

/-- C77, delivery: if the polling loop runs, no listener throws, its thread is scheduled again and again and the queue does not hide its events for
ever, then every event accepted up to time `i` leaves the queue, and all of them that no publisher removed have been given to the listeners, in the
order of acceptance. -/
theorem C77_delivered (h : Run d σ α) {i : Nat} (ha : PollAlive σ α i) :
    ∃ j, i ≤ j ∧ ((σ j).cq.taken.take (σ i).cq.published.length).map (·.2) = (σ i).cq.published ∧
      (((σ j).cq.taken.take (σ i).cq.published.length).filter (·.1.isNone)).map (·.2) <+: (σ j).cq.emitted := by
  obtain ⟨j, hj, hl⟩ := h.drain ha _ (Nat.le_refl _)
  obtain ⟨k, hk, hp⟩ := h.emits (ha.later h hj)
  have e : (σ k).cq.taken.take (σ i).cq.published.length = (σ j).cq.taken.take (σ i).cq.published.length := by
    obtain ⟨r, hr⟩ := (h.mono hk).1
    rw [← hr, List.take_append_of_le_length hl]
  refine ⟨k, Nat.le_trans hj hk, ?_, ?_⟩
  · rw [e]
    obtain ⟨r, hr⟩ := (h.mono hj).2.1
    have h1 := (h.inv j).cq.split
    rw [← hr] at h1
    have h2 := congrArg (List.take (σ i).cq.published.length) h1
    rw [List.take_append_of_le_length (Nat.le_refl _), List.take_length, List.take_append_of_le_length (by simpa using hl)] at h2
    rw [List.map_take]; exact h2.symm
  · rw [e]
    refine List.IsPrefix.trans ?_ hp
    rw [← (h.inv j).cq.poll]
    exact List.IsPrefix.map _ (List.IsPrefix.filter _ (List.take_prefix _ _))

/-- C77, delivery with a blocking middleware: every accepted event reaches the listeners, in the order of acceptance. -/
theorem C77_blocking_delivered (h : Run false σ α) {i : Nat} (ha : PollAlive σ α i) : ∃ j, i ≤ j ∧ (σ i).cq.published <+: (σ j).cq.emitted := by
  obtain ⟨j, hj, h1, h2⟩ := C77_delivered h ha
  refine ⟨j, hj, ?_⟩
  rw [List.filter_eq_self.mpr (fun x hx => by simp [((h.inv j).cq.block rfl).1 x (List.mem_of_mem_take hx)]), h1] at h2
  exact h2

/-- C77, a blocking `publish` returns: with a running poller the event of every call is accepted and the call returns. -/
theorem C77_publish_returns (h : Run false σ α) {i : Nat} (ha : PollAlive σ α i) {t : Nat} {x : T} (hf : TryFair t σ α)
    (ht : (σ i).Trying t x) : ∃ j, i ≤ j ∧ (σ (j + 1)).cq.published = (σ j).cq.published ++ [x] ∧ (σ (j + 1)).cq.pc t = .idle := by
  obtain ⟨n, hn | hn⟩ := ht
  swap
  · exact absurd hn ((((h.inv i).cq.block rfl).2 t).1 _ _)
  have ht : ∀ j, (σ j).cq.pc t = .enq x n → (σ j).Trying t x := fun j hj => ⟨n, Or.inl hj⟩
  -- either it is accepted, or the queue runs empty and it is accepted
  by_contra hno
  have step1 : ∀ j, i ≤ j → (σ j).cq.pc t = .enq x n → α j ≠ some (.cq (.enq t true)) := by
    intro j hj hp e
    obtain ⟨h1, m, h2⟩ := h.accepted e (ht j hp)
    exact hno ⟨j, hj, h1, by simpa using h2⟩
  have stay : ∀ j, i ≤ j → (σ j).cq.pc t = .enq x n ∧ (σ j).cq.published = (σ i).cq.published := by
    intro j hj
    induction hj with
    | refl => exact ⟨hn, rfl⟩
    | step hm ih =>
      rename_i m
      show (σ (m + 1)).cq.pc t = _ ∧ (σ (m + 1)).cq.published = _
      rcases h.next m with ⟨_, e⟩ | ⟨a, e1, e2⟩
      · rw [e]; exact ih
      · cases step_eff e2 with
        | cq b hx _ hb _ =>
          subst hx
          have := cq_blocked ih.1 (h.calm m) hb (fun e => step1 m hm ih.1 (by rw [e1, e]))
          exact ⟨this.1, this.2.trans ih.2⟩
        | throw _ _ _ e => rw [e]; exact ih
        | restart _ _ e => rw [e]; exact ih
  obtain ⟨k, hk, hl⟩ := h.drain ha _ (Nat.le_refl _)
  have empty : ∀ j, k ≤ j → (σ j).cq.q = [] := by
    intro j hj
    have h1 := h.len j
    have h2 := (h.mono hj).1.length_le
    rw [(stay j (Nat.le_trans hk hj)).2] at h1
    exact List.eq_nil_of_length_eq_zero (by omega)
  have turns : ∀ l, k ≤ l → ∃ j, l ≤ j ∧ ∃ b, α j = some (.cq (.enq t b)) := by
    intro l hl'
    obtain ⟨j, hj, a, e, ht'⟩ := hf.fair l (fun j hj => ⟨x, ht j (stay j (by omega)).1⟩)
    refine ⟨j, hj, ?_⟩
    unfold TryTurn at ht'
    split at ht'
    · subst ht'; exact ⟨_, e⟩
    · subst ht'
      rcases h.next j with ⟨e', _⟩ | ⟨a, e2, e3⟩
      · rw [e] at e'; cases e'
      · rw [e] at e2; cases e2
        cases step_eff e3 with
        | cq b hx _ hb _ => cases hx; simp [CQ.step, (stay j (by omega)).1] at hb
        | throw hx => cases hx
        | restart hx => cases hx
    · exact absurd ht' id
  obtain ⟨j, hj, e⟩ := hf.accepts k empty turns
  exact step1 j (by omega) (stay j (by omega)).1 e

/-- C77, a discarding `publish` returns, whatever the poller does: if no other thread enqueues an event from time `i` on, the event of the call is
accepted and only the statistics remain to be updated.
Missing: other threads that go on publishing (`C77_violation_starvation`). -/
theorem C77_discarding_returns_partial (h : Run true σ α) {i t : Nat} {x : T} (hf : TryFair t σ α) (ht : (σ i).Trying t x)
    (halone : ∀ j, i ≤ j → ∀ u, u ≠ t → α j ≠ some (.cq (.enq u true))) :
    ∃ j, i ≤ j ∧ (σ (j + 1)).cq.published = (σ j).cq.published ++ [x] ∧ ∃ n, (σ (j + 1)).cq.pc t = .acct n := by
  -- the first acceptance
  by_cases hacc : ∃ j, i ≤ j ∧ α j = some (.cq (.enq t true))
  swap
  · exact (h.loop_ends ht hf (fun j hj u e => by
      by_cases hu : u = t
      · subst hu; exact hacc ⟨j, hj, e⟩
      · exact halone j hj u hu e)).elim
  have hmin : ∃ j, (i ≤ j ∧ α j = some (.cq (.enq t true))) ∧ ∀ m, i ≤ m → m < j → α m ≠ some (.cq (.enq t true)) := by
    obtain ⟨j, hj⟩ := hacc
    induction j using Nat.strongRecOn with
    | ind j ih =>
      by_cases hm : ∃ m, m < j ∧ i ≤ m ∧ α m = some (.cq (.enq t true))
      · obtain ⟨m, h1, h2⟩ := hm
        exact ih m h1 h2
      · exact ⟨j, hj, fun m h1 h2 e => hm ⟨m, h2, h1, e⟩⟩
  obtain ⟨j, ⟨hj, e⟩, hm⟩ := hmin
  have stay : ∀ m, i ≤ m → m ≤ j → (σ m).Trying t x := by
    intro m h1
    induction h1 with
    | refl => exact fun _ => ht
    | step h1 ih =>
      rename_i m
      intro h2
      have h2 : m + 1 ≤ j := h2
      show (σ (m + 1)).Trying t x
      rcases h.next m with ⟨_, e'⟩ | ⟨a, e1, e2⟩
      · rw [e']; exact ih (by omega)
      · cases step_eff e2 with
        | cq b hx _ hb _ =>
          subst hx
          refine (cq_loop (ih (by omega)) hb (fun u e' => ?_)).1
          subst e'
          by_cases hu : u = t
          · subst hu; exact hm m h1 (by omega) e1
          · exact halone m h1 u hu e1
        | throw _ _ _ e' => rw [e']; exact ih (by omega)
        | restart _ _ e' => rw [e']; exact ih (by omega)
  obtain ⟨h1, n, h2⟩ := h.accepted e (stay j hj (Nat.le_refl _))
  exact ⟨j, hj, h1, n, by simpa using h2⟩

/-! ### A listener that throws -/

/-- A step of the ended middleware, without restart. -/
theorem dead_step {s s' : St T} {a : Act T} (hd : s.alive = false) (hn : a ≠ .restart) (hs : step d s a = some s') :
    s'.alive = false ∧ s'.cq.emitted = s.cq.emitted := by
  cases step_eff hs with
  | cq b ha hp hb hl =>
    refine ⟨hl.trans hd, ?_⟩
    cases hx : byPoller b with
    | true => exact absurd (hp hx) (by simp [hd])
    | false => exact (cq_other hx hb).2
  | throw ha hh hl e => rw [hd] at hl; cases hl
  | restart ha hl e => exact absurd ha hn

/-- C77 fails after an exception of a listener: the exception ends the polling loop and nobody notices; from then on, whatever happens without a
restart of the middleware, no event reaches a listener. -/
theorem C77_violation_throwing_listener {s s' : St T} (hd : s.alive = false) (as : List (Act T)) (hn : .restart ∉ as)
    (hs : run d s as = some s') : s'.alive = false ∧ s'.cq.emitted = s.cq.emitted := by
  induction as generalizing s with
  | nil => simp only [run, Option.some.injEq] at hs; subst hs; exact ⟨hd, rfl⟩
  | cons a as ih =>
    simp only [run] at hs
    split at hs
    · cases hs
    next t ht =>
    obtain ⟨h1, h2⟩ := dead_step hd (fun e => hn (by rw [e]; exact List.mem_cons_self)) ht
    obtain ⟨g1, g2⟩ := ih h1 (fun h => hn (List.mem_cons_of_mem _ h)) hs
    exact ⟨g1, g2.trans h2⟩

/-- The listener throws on event 10; event 11 is in the queue, which has no more room; thread 2 tries to publish event 12. -/
def deadActs : List (Act Nat) :=
  [.cq (.publish 1 10), .cq (.enq 1 true), .cq (.poll true), .throw, .cq (.publish 1 11), .cq (.enq 1 true), .cq (.publish 2 12)]

def deadSt : St Nat :=
  ⟨⟨[11], upd (upd (upd (upd (upd (fun _ => .idle) 1 (.enq 10 0)) 1 .idle) 1 (.enq 11 0)) 1 .idle) 2 (.enq 12 0), [], [10], 0, [10, 11], [(none, 10)], []⟩, false⟩

theorem no_race {s : St T} {t : Nat} (h : ∀ u, u ≠ t → ∀ x n, s.cq.pc u ≠ .enq x n) : ¬ s.cq.TokenRace := by
  rintro ⟨a, b, x, n, y, m, hab, h1, h2⟩
  by_cases ha : a = t
  · exact h b (fun e => hab (ha.trans e.symm)) y m h2
  · exact h a ha x n h1

theorem dead_race : ¬ deadSt.cq.TokenRace := by
  refine no_race (t := 2) ?_
  intro u hu x n
  simp only [deadSt]
  rw [upd_other _ _ hu]
  simp only [upd_apply]
  (repeat' split) <;> nofun

theorem dead_reach : Reach false deadSt := by
  have idle : ∀ (s : St Nat) (t : Nat) (p : CQ.Pc Nat), (∀ u, s.cq.pc u = upd (fun _ => .idle) t p u) → ¬ s.cq.TokenRace := by
    intro s t p h
    refine no_race (t := t) ?_
    intro u hu x n
    rw [h u, upd_other _ _ hu]
    nofun
  have flat : ∀ (p q : CQ.Pc Nat) u, upd (upd (fun _ => CQ.Pc.idle) 1 p) 1 q u = upd (fun _ => .idle) 1 q u := by
    intro p q u; simp only [upd_apply]; split <;> rfl
  refine .step (a := .cq (.publish 2 12)) (.step (a := .cq (.enq 1 true)) (.step (a := .cq (.publish 1 11)) (.step (a := .throw)
    (.step (a := .cq (.poll true)) (.step (a := .cq (.enq 1 true)) (.step (a := .cq (.publish 1 10)) .init ?_ rfl) ?_ rfl) ?_ rfl) ?_ rfl) ?_ rfl) ?_ rfl) ?_ rfl
  · exact idle _ 1 .idle (fun u => by simp [St.init, CQ.St.init, upd_apply])
  · exact idle _ 1 (.enq 10 0) (fun u => rfl)
  · exact idle _ 1 .idle (flat _ _)
  · exact idle _ 1 .idle (flat _ _)
  · exact idle _ 1 .idle (flat _ _)
  · exact idle _ 1 (.enq 11 0) (fun u => by simp only [upd_apply]; split <;> rfl)
  · exact idle _ 1 .idle (fun u => by simp only [upd_apply]; (repeat' split) <;> first | rfl | contradiction)

/-- C77 fails for publishers too: after an exception of a listener, in an execution that is fair to thread 2 and to a running poller, the blocking
`publish(12)` of thread 2 tries for ever: the full queue refuses, and nobody takes from it. -/
theorem C77_violation_blocked_for_ever : ∃ (σ : Nat → St Nat) (α : Nat → Option (Act Nat)), Run false σ α ∧ TryFair 2 σ α ∧
    FairTo (fun s : St Nat => s.alive = true) PollTurn σ α ∧ ∀ i, (σ i).Trying 2 12 ∧ (σ i).cq.q = [11] ∧ (σ i).alive = false := by
  refine ⟨fun _ => deadSt, fun _ => some (.cq (.enq 2 false)), ⟨dead_reach, ?_, fun _ => dead_race⟩, ⟨?_, ?_, ?_⟩, ?_, ?_⟩
  · intro i
    show step false deadSt _ = some deadSt
    have e : upd deadSt.cq.pc 2 (.enq 12 0) = deadSt.cq.pc := by
      funext u; simp only [deadSt, upd_apply]; (repeat' split) <;> rfl
    show some (⟨{ deadSt.cq with pc := upd deadSt.cq.pc 2 (.enq 12 0) }, false⟩ : St Nat) = some deadSt
    rw [e]; rfl
  · intro i _; exact ⟨i, Nat.le_refl _, _, rfl, rfl⟩
  · intro k hk _; exact absurd (hk k (Nat.le_refl _)) (by simp [deadSt])
  · intro k _ hk
    obtain ⟨j, _, b, e⟩ := hk k (Nat.le_refl _)
    cases e
  · intro i hi; exact absurd (hi i (Nat.le_refl _)) (by simp [deadSt])
  · intro i; exact ⟨⟨0, Or.inl rfl⟩, rfl, rfl⟩

/-! ### A discarding publisher that starves -/

/-- Round `k`: thread 2 has removed `k` events to make room for event 20, and has been refused again. -/
def starveSt (k p : Nat) (q : List Nat) (p1 p2 : CQ.Pc Nat) (hand : List Nat) (e : Nat) : St Nat :=
  ⟨⟨q, fun u => if u = 1 then p1 else if u = 2 then p2 else .idle, hand, List.replicate e 10, 0, List.replicate p 10,
    (List.replicate k [((none : Option Nat), 10), (some 2, 10)]).flatten ++ (if e + hand.length = k then [] else [(none, 10)]), []⟩, true⟩

/-- Ten steps a round: thread 1 publishes twice, the poller delivers an event, thread 2 removes one and is refused. -/
def starveσ (i : Nat) : St Nat :=
  let k := i / 10
  match i % 10 with
  | 0 => starveSt k (2 * k + 1) [10] .idle (.rem 20 k) [] k
  | 1 => starveSt k (2 * k + 1) [10] (.enq 10 0) (.rem 20 k) [] k
  | 2 => starveSt k (2 * k + 2) [10, 10] (.acct 0) (.rem 20 k) [] k
  | 3 => starveSt k (2 * k + 2) [10, 10] .idle (.rem 20 k) [] k
  | 4 => starveSt k (2 * k + 2) [10, 10] (.enq 10 0) (.rem 20 k) [] k
  | 5 => starveSt k (2 * k + 3) [10, 10, 10] (.acct 0) (.rem 20 k) [] k
  | 6 => starveSt k (2 * k + 3) [10, 10, 10] .idle (.rem 20 k) [] k
  | 7 => starveSt k (2 * k + 3) [10, 10] .idle (.rem 20 k) [10] k
  | 8 => starveSt k (2 * k + 3) [10, 10] .idle (.rem 20 k) [] (k + 1)
  | _ => starveSt (k + 1) (2 * k + 3) [10] .idle (.enq 20 (k + 1)) [] (k + 1)

def starveα (i : Nat) : Option (Act Nat) :=
  match i % 10 with
  | 0 => some (.cq (.publish 1 10))
  | 1 => some (.cq (.enq 1 true))
  | 2 => some (.cq (.account 1))
  | 3 => some (.cq (.publish 1 10))
  | 4 => some (.cq (.enq 1 true))
  | 5 => some (.cq (.account 1))
  | 6 => some (.cq (.poll true))
  | 7 => some (.cq .emit)
  | 8 => some (.cq (.rem 2 true))
  | _ => some (.cq (.enq 2 false))

/-- Where threads 1 and 2 are; the others do nothing. -/
theorem two_upd1 (a b c : CQ.Pc Nat) :
    upd (fun u => if u = 1 then a else if u = 2 then b else .idle) 1 c = fun u => if u = 1 then c else if u = 2 then b else .idle := by
  funext u; simp only [upd_apply]; split <;> rfl

theorem two_upd2 (a b c : CQ.Pc Nat) :
    upd (fun u => if u = 1 then a else if u = 2 then b else .idle) 2 c = fun u => if u = 1 then a else if u = 2 then c else .idle := by
  funext u; simp only [upd_apply]; (repeat' split) <;> first | rfl | omega

theorem two_race (s : St Nat) (a b : CQ.Pc Nat) (h : s.cq.pc = fun u => if u = 1 then a else if u = 2 then b else .idle)
    (hab : (∀ x n, a ≠ .enq x n) ∨ ∀ x n, b ≠ .enq x n) : ¬ s.cq.TokenRace := by
  rcases hab with hab | hab
  · refine no_race (t := 2) fun u hu x n => ?_
    rw [h]; dsimp only
    rw [if_neg hu]
    split
    · exact hab x n
    · nofun
  · refine no_race (t := 1) fun u hu x n => ?_
    rw [h]; dsimp only
    rw [if_neg hu]
    split
    · exact hab x n
    · nofun

theorem flat_succ (k : Nat) (l : List (Option Nat × Nat)) : (List.replicate (k + 1) l).flatten = (List.replicate k l).flatten ++ l := by
  rw [List.replicate_succ']; simp

theorem rep_succ (k : Nat) : List.replicate (k + 1) 10 = List.replicate k 10 ++ [10] := List.replicate_succ'

theorem starve_exec : Exec (step true) starveσ starveα := by
  intro i
  have hm : i % 10 = 0 ∨ i % 10 = 1 ∨ i % 10 = 2 ∨ i % 10 = 3 ∨ i % 10 = 4 ∨ i % 10 = 5 ∨ i % 10 = 6 ∨ i % 10 = 7 ∨ i % 10 = 8 ∨ i % 10 = 9 := by omega
  rcases hm with hm | hm | hm | hm | hm | hm | hm | hm | hm | hm
  · have h1 : (i + 1) % 10 = 1 := by omega
    have h2 : (i + 1) / 10 = i / 10 := by omega
    simp [starveα, starveσ, hm, h1, h2, starveSt, step, byPoller, CQ.step, two_upd1]
  · have h1 : (i + 1) % 10 = 2 := by omega
    have h2 : (i + 1) / 10 = i / 10 := by omega
    simp [starveα, starveσ, hm, h1, h2, starveSt, step, byPoller, CQ.step, two_upd1, rep_succ (2 * (i / 10) + 1)]
  · have h1 : (i + 1) % 10 = 3 := by omega
    have h2 : (i + 1) / 10 = i / 10 := by omega
    simp [starveα, starveσ, hm, h1, h2, starveSt, step, byPoller, CQ.step, two_upd1]
  · have h1 : (i + 1) % 10 = 4 := by omega
    have h2 : (i + 1) / 10 = i / 10 := by omega
    simp [starveα, starveσ, hm, h1, h2, starveSt, step, byPoller, CQ.step, two_upd1]
  · have h1 : (i + 1) % 10 = 5 := by omega
    have h2 : (i + 1) / 10 = i / 10 := by omega
    simp [starveα, starveσ, hm, h1, h2, starveSt, step, byPoller, CQ.step, two_upd1, rep_succ (2 * (i / 10) + 2)]
  · have h1 : (i + 1) % 10 = 6 := by omega
    have h2 : (i + 1) / 10 = i / 10 := by omega
    simp [starveα, starveσ, hm, h1, h2, starveSt, step, byPoller, CQ.step, two_upd1]
  · have h1 : (i + 1) % 10 = 7 := by omega
    have h2 : (i + 1) / 10 = i / 10 := by omega
    simp [starveα, starveσ, hm, h1, h2, starveSt, step, byPoller, CQ.step]
  · have h1 : (i + 1) % 10 = 8 := by omega
    have h2 : (i + 1) / 10 = i / 10 := by omega
    simp [starveα, starveσ, hm, h1, h2, starveSt, step, byPoller, CQ.step, rep_succ (i / 10)]
  · have h1 : (i + 1) % 10 = 9 := by omega
    have h2 : (i + 1) / 10 = i / 10 := by omega
    simp [starveα, starveσ, hm, h1, h2, starveSt, step, byPoller, CQ.step, two_upd2, flat_succ (i / 10)]
  · have h1 : (i + 1) % 10 = 0 := by omega
    have h2 : (i + 1) / 10 = i / 10 + 1 := by omega
    simp [starveα, starveσ, hm, h1, h2, starveSt, step, byPoller, CQ.step, two_upd2]
    omega

theorem starve_race (i : Nat) : ¬ (starveσ i).cq.TokenRace := by
  simp only [starveσ]
  split
  case h_10 => exact two_race _ .idle _ rfl (Or.inl nofun)
  all_goals exact two_race _ _ (.rem 20 (i / 10)) rfl (Or.inr nofun)

theorem starve_reach : Reach true (starveσ 0) := by
  have e0 : (St.init : St Nat) = starveSt 0 0 [] .idle .idle [] 0 := by
    simp only [St.init, CQ.St.init, starveSt]
    congr 2
    · funext u; (repeat' split) <;> rfl
  have h0 : Reach true (starveSt 0 0 [] .idle .idle [] 0) := e0 ▸ Reach.init
  have h1 : Reach true (starveSt 0 0 [] (.enq 10 0) .idle [] 0) :=
    .step (a := .cq (.publish 1 10)) h0 (two_race _ .idle .idle rfl (Or.inl nofun)) (by simp [starveSt, step, byPoller, CQ.step]; funext u; simp only [upd_apply])
  have h2 : Reach true (starveSt 0 1 [10] (.acct 0) .idle [] 0) :=
    .step (a := .cq (.enq 1 true)) h1 (two_race _ _ .idle rfl (Or.inr nofun)) (by simp [starveSt, step, byPoller, CQ.step]; funext u; simp only [upd_apply]; (repeat' split) <;> first | rfl | omega)
  have h3 : Reach true (starveSt 0 1 [10] .idle .idle [] 0) :=
    .step (a := .cq (.account 1)) h2 (two_race _ _ .idle rfl (Or.inr nofun)) (by simp [starveSt, step, byPoller, CQ.step]; funext u; simp only [upd_apply]; (repeat' split) <;> first | rfl | omega)
  have h4 : Reach true (starveSt 0 1 [10] .idle (.enq 20 0) [] 0) :=
    .step (a := .cq (.publish 2 20)) h3 (two_race _ .idle _ rfl (Or.inl nofun)) (by simp [starveSt, step, byPoller, CQ.step]; funext u; simp only [upd_apply]; (repeat' split) <;> first | rfl | omega)
  exact .step (a := .cq (.enq 2 false)) h4 (two_race _ .idle _ rfl (Or.inl nofun)) (by simp [starveσ, starveSt, step, byPoller, CQ.step, two_upd2])

theorem starve_at (r : Nat) (hr : r < 10) (i : Nat) : (10 * i + r) % 10 = r := by omega

/-- C77 fails for a discarding publisher among others: in a fair execution with a running poller and an honest queue, thread 2 removes one event
after the other and is never accepted, while thread 1 publishes again and again. -/
theorem C77_violation_starvation : ∃ (σ : Nat → St Nat) (α : Nat → Option (Act Nat)), Run true σ α ∧ PollAlive σ α 0 ∧ TryFair 2 σ α ∧
    (∀ i, (σ i).Trying 2 20) ∧ (∀ i, ∃ j, i ≤ j ∧ α j = some (.cq (.enq 1 true))) ∧ ∀ i, ∃ j, i ≤ (σ j).cq.published.length := by
  have hne : ∀ i, (starveσ i).cq.q ≠ [] := by
    intro i
    simp only [starveσ]
    split <;> simp [starveSt]
  have at1 : ∀ i, starveα (10 * i + 1) = some (.cq (.enq 1 true)) := fun i => by simp [starveα, starve_at 1]
  have at6 : ∀ i, starveα (10 * i + 6) = some (.cq (.poll true)) := fun i => by simp [starveα, starve_at 6]
  have at8 : ∀ i, starveα (10 * i + 8) = some (.cq (.rem 2 true)) := fun i => by simp [starveα, starve_at 8]
  refine ⟨starveσ, starveα, ⟨starve_reach, starve_exec, starve_race⟩, ⟨rfl, ?_, ?_, ?_⟩, ⟨?_, ?_, ?_⟩, ?_, ?_, ?_⟩
  · intro j _
    unfold starveα
    split <;> nofun
  · exact fun i _ => ⟨10 * i + 6, by omega, _, at6 i, trivial⟩
  · exact fun k _ _ => ⟨10 * k + 6, by omega, at6 k⟩
  · exact fun i _ => ⟨10 * i + 8, by omega, _, at8 i, rfl⟩
  · exact fun k hk => absurd (hk k (Nat.le_refl _)) (hne k)
  · exact fun k _ _ => ⟨10 * k + 8, by omega, at8 k⟩
  · intro i
    simp only [starveσ]
    split
    case h_10 => exact ⟨_, Or.inl rfl⟩
    all_goals exact ⟨i / 10, Or.inr rfl⟩
  · exact fun i => ⟨10 * i + 1, by omega, at1 i⟩
  · intro i
    refine ⟨10 * i, ?_⟩
    have h1 : 10 * i % 10 = 0 := by omega
    have h2 : 10 * i / 10 = i := by omega
    simp only [starveσ, h1, h2, starveSt, List.length_replicate]
    omega

/-! ### An execution that meets the hypotheses -/

/-- A blocking middleware: thread 1 publishes event 10; thread 2 publishes event 20 and is refused until the poller has taken event 10; later the
poller asks an empty queue again and again. -/
def liveActs : List (Act Nat) :=
  [.cq (.publish 1 10), .cq (.enq 1 true), .cq (.publish 2 20), .cq (.enq 2 false), .cq (.poll false), .cq (.poll true), .cq (.enq 2 true), .cq .emit,
   .cq (.poll true), .cq .emit]

/-- The states of the run, with an arbitrary action after the end of the list. -/
def follow (d : Bool) (as : List (Act Nat)) (z : Act Nat) : Nat → St Nat
  | 0 => St.init
  | i + 1 => match step d (follow d as z i) (as.getD i z) with
    | some s => s
    | none => follow d as z i

/-- The thread an action moves. -/
def mover : Act T → Option Nat
  | .cq (.publish t _) | .cq (.enq t _) | .cq (.rem t _) | .cq (.account t) => some t
  | _ => none

theorem other_pc {s s' : St T} {a : Act T} {u : Nat} (hu : mover a ≠ some u) (hs : step d s a = some s') : s'.cq.pc u = s.cq.pc u := by
  cases step_eff hs with
  | cq b ha hp hb hl =>
    subst ha
    cases b with
    | publish t x | enq t x | rem t x =>
      have : u ≠ t := fun e => hu (by rw [e]; rfl)
      simp only [CQ.step] at hb
      (repeat' split at hb) <;> first | cases hb; done | (injection hb with hb; rw [← hb]; exact upd_other _ _ this)
    | account t =>
      have : u ≠ t := fun e => hu (by rw [e]; rfl)
      simp only [CQ.step] at hb
      (repeat' split at hb) <;> first | cases hb; done | (injection hb with hb; rw [← hb]; exact upd_other _ _ this)
    | poll ok =>
      simp only [CQ.step] at hb
      (repeat' split at hb) <;> first | cases hb; done | (injection hb with hb; rw [← hb])
    | emit =>
      simp only [CQ.step] at hb
      (repeat' split at hb) <;> first | cases hb; done | (injection hb with hb; rw [← hb])
  | throw ha hh hl e => rw [e]
  | restart ha hl e => rw [e]

theorem follow_other (d : Bool) (as : List (Act Nat)) (z : Act Nat) (h : ∀ a ∈ z :: as, mover a = none ∨ mover a = some 1 ∨ mover a = some 2)
    (i u : Nat) (h1 : u ≠ 1) (h2 : u ≠ 2) : (follow d as z i).cq.pc u = .idle := by
  induction i with
  | zero => rfl
  | succ i ih =>
    rw [follow]
    split
    · next s hs =>
      have hm : as.getD i z ∈ z :: as := by
        rw [List.getD_eq_getElem?_getD]
        cases he : as[i]? with
        | none => exact List.mem_cons_self
        | some a => exact List.mem_cons_of_mem _ (List.mem_of_getElem? he)
      rw [other_pc (u := u) ?_ hs]
      · exact ih
      · rcases h _ hm with e | e | e <;> rw [e] <;> simp [Ne.symm h1, Ne.symm h2]
    · exact ih

def isEnq : CQ.Pc Nat → Bool
  | .enq .. => true
  | _ => false

theorem race_two {s : St Nat} (h : ∀ u, u ≠ 1 → u ≠ 2 → s.cq.pc u = .idle) (hp : (isEnq (s.cq.pc 1) && isEnq (s.cq.pc 2)) = false) :
    ¬ s.cq.TokenRace := by
  have key : ∀ t x n, s.cq.pc t = .enq x n → t = 1 ∨ t = 2 := by
    intro t x n e
    by_contra hno
    rw [h t (fun e => hno (Or.inl e)) (fun e => hno (Or.inr e))] at e
    cases e
  rintro ⟨a, b, x, n, y, m, hab, h1, h2⟩
  rcases key a x n h1 with rfl | rfl <;> rcases key b y m h2 with rfl | rfl
  · exact hab rfl
  · rw [h1, h2] at hp; cases hp
  · rw [h1, h2] at hp; cases hp
  · exact hab rfl

theorem follow_end (d : Bool) (as : List (Act Nat)) (z : Act Nat) (hz : step d (follow d as z as.length) z = some (follow d as z as.length)) (i : Nat) :
    follow d as z (as.length + i) = follow d as z as.length := by
  induction i with
  | zero => rfl
  | succ i ih =>
    show follow d as z (as.length + i + 1) = _
    rw [follow, ih, List.getD_eq_getElem?_getD, List.getElem?_eq_none (Nat.le_add_right _ _)]
    simp only [Option.getD_none, hz]

theorem follow_run (d : Bool) (as : List (Act Nat)) (z : Act Nat) (hz : step d (follow d as z as.length) z = some (follow d as z as.length))
    (hs : ∀ i, i < as.length → step d (follow d as z i) (as.getD i z) = some (follow d as z (i + 1)))
    (h : ∀ a ∈ z :: as, mover a = none ∨ mover a = some 1 ∨ mover a = some 2)
    (hr : ∀ i, i ≤ as.length → (isEnq ((follow d as z i).cq.pc 1) && isEnq ((follow d as z i).cq.pc 2)) = false) :
    Run d (follow d as z) (fun i => some (as.getD i z)) := by
  refine ⟨.init, fun i => ?_, fun i => race_two (follow_other d as z h i) ?_⟩
  · show step d (follow d as z i) (as.getD i z) = some (follow d as z (i + 1))
    by_cases hi : i < as.length
    · exact hs i hi
    · obtain ⟨k, rfl⟩ : ∃ k, i = as.length + k := ⟨i - as.length, by omega⟩
      show _ = some (follow d as z (as.length + (k + 1)))
      rw [follow_end d as z hz, follow_end d as z hz, List.getD_eq_getElem?_getD, List.getElem?_eq_none (Nat.le_add_right _ _)]
      exact hz
  · by_cases hi : i ≤ as.length
    · exact hr i hi
    · obtain ⟨k, rfl⟩ : ∃ k, i = as.length + k := ⟨i - as.length, by omega⟩
      rw [follow_end d as z hz]
      exact hr _ (Nat.le_refl _)

theorem late (as : List (Act Nat)) (z : Act Nat) {i : Nat} (hi : as.length ≤ i) : as.getD i z = z := by
  rw [List.getD_eq_getElem?_getD, List.getElem?_eq_none hi]; rfl

/-- This is an execution. -/
theorem live_run : Run false (follow false liveActs (.cq (.poll false))) (fun i => some (liveActs.getD i (.cq (.poll false)))) := by
  refine follow_run false liveActs _ rfl ?_ ?_ ?_
  · intro i hi
    have : i = 0 ∨ i = 1 ∨ i = 2 ∨ i = 3 ∨ i = 4 ∨ i = 5 ∨ i = 6 ∨ i = 7 ∨ i = 8 ∨ i = 9 := by simp [liveActs] at hi; omega
    rcases this with rfl | rfl | rfl | rfl | rfl | rfl | rfl | rfl | rfl | rfl <;> rfl
  · intro a ha
    simp [liveActs] at ha
    rcases ha with rfl | rfl | rfl | rfl | rfl | rfl | rfl | rfl | rfl | rfl | rfl <;> simp [mover]
  · intro i hi
    have : i = 0 ∨ i = 1 ∨ i = 2 ∨ i = 3 ∨ i = 4 ∨ i = 5 ∨ i = 6 ∨ i = 7 ∨ i = 8 ∨ i = 9 ∨ i = 10 := by simp [liveActs] at hi; omega
    rcases this with rfl | rfl | rfl | rfl | rfl | rfl | rfl | rfl | rfl | rfl | rfl <;> rfl

/-- The hypotheses of the theorems on the blocking middleware hold in this execution: at time 4 the queue is full, thread 2 has been refused and goes
on trying, and the poller has not yet started. -/
theorem C77_example_blocking : ∃ (σ : Nat → St Nat) (α : Nat → Option (Act Nat)), Run false σ α ∧ PollAlive σ α 4 ∧ TryFair 2 σ α ∧
    (σ 4).Trying 2 20 ∧ (σ 4).cq.published = [10] ∧ (σ 4).cq.q = [10] ∧ (σ 10).cq.emitted = [10, 20] := by
  have hend := fun i => follow_end false liveActs (.cq (.poll false)) rfl i
  refine ⟨follow false liveActs (.cq (.poll false)), fun i => some (liveActs.getD i (.cq (.poll false))), live_run,
    ⟨rfl, ?_, ?_, ?_⟩, ⟨?_, ?_, ?_⟩, ⟨0, Or.inl rfl⟩, rfl, rfl, rfl⟩
  · intro j hj
    by_cases hi : 10 ≤ j
    · rw [late liveActs _ hi]; nofun
    · have : j = 4 ∨ j = 5 ∨ j = 6 ∨ j = 7 ∨ j = 8 ∨ j = 9 := by omega
      rcases this with rfl | rfl | rfl | rfl | rfl | rfl <;> nofun
  · intro i _
    exact ⟨10 + i, by omega, .cq (.poll false), congrArg some (late liveActs _ (Nat.le_add_right 10 i)), trivial⟩
  · intro k hk _
    exact absurd (congrArg (fun s => s.cq.q) (hend k)) (hk (10 + k) (by omega))
  · intro i hi
    obtain ⟨x, n, h⟩ := hi (10 + i) (by omega)
    have e := congrArg (fun s : St Nat => s.cq.pc 2) (hend i)
    have e' : (follow false liveActs (.cq (.poll false)) (10 + i)).cq.pc 2 = .idle := e
    rw [e'] at h
    rcases h with h | h <;> cases h
  · intro k _ hk
    obtain ⟨j, hj, b, e⟩ := hk (10 + k) (by omega)
    rw [late liveActs _ (by show 10 ≤ j; omega)] at e
    cases e
  · intro k _ hk
    obtain ⟨j, hj, b, e⟩ := hk (10 + k) (by omega)
    rw [late liveActs _ (by show 10 ≤ j; omega)] at e
    cases e

/-- A discarding middleware with a poller that never runs: thread 2 removes event 10, after the queue appeared empty once, and is accepted. -/
def discActs : List (Act Nat) :=
  [.cq (.publish 1 10), .cq (.enq 1 true), .cq (.account 1), .cq (.publish 2 20), .cq (.enq 2 false), .cq (.rem 2 false), .cq (.enq 2 false),
   .cq (.rem 2 true), .cq (.enq 2 true), .cq (.account 2)]

/-- The hypotheses of the theorem on the discarding middleware hold in this execution. -/
theorem C77_example_discarding : ∃ (σ : Nat → St Nat) (α : Nat → Option (Act Nat)), Run true σ α ∧ TryFair 2 σ α ∧
    (σ 4).Trying 2 20 ∧ (∀ j, 4 ≤ j → ∀ u, u ≠ 2 → α j ≠ some (.cq (.enq u true))) ∧ (σ 4).cq.q = [10] ∧ (σ 10).cq.q = [20] ∧ (σ 10).cq.stats = 1 := by
  have hend := fun i => follow_end true discActs (.cq (.poll false)) rfl i
  refine ⟨follow true discActs (.cq (.poll false)), fun i => some (discActs.getD i (.cq (.poll false))), follow_run true discActs _ rfl ?_ ?_ ?_,
    ⟨?_, ?_, ?_⟩, ⟨0, Or.inl rfl⟩, ?_, rfl, rfl, rfl⟩
  · intro i hi
    have : i = 0 ∨ i = 1 ∨ i = 2 ∨ i = 3 ∨ i = 4 ∨ i = 5 ∨ i = 6 ∨ i = 7 ∨ i = 8 ∨ i = 9 := by simp [discActs] at hi; omega
    rcases this with rfl | rfl | rfl | rfl | rfl | rfl | rfl | rfl | rfl | rfl <;> rfl
  · intro a ha
    simp [discActs] at ha
    rcases ha with rfl | rfl | rfl | rfl | rfl | rfl | rfl | rfl | rfl | rfl | rfl <;> simp [mover]
  · intro i hi
    have : i = 0 ∨ i = 1 ∨ i = 2 ∨ i = 3 ∨ i = 4 ∨ i = 5 ∨ i = 6 ∨ i = 7 ∨ i = 8 ∨ i = 9 ∨ i = 10 := by simp [discActs] at hi; omega
    rcases this with rfl | rfl | rfl | rfl | rfl | rfl | rfl | rfl | rfl | rfl | rfl <;> rfl
  · intro i hi
    obtain ⟨x, n, h⟩ := hi (10 + i) (by omega)
    have e := congrArg (fun s : St Nat => s.cq.pc 2) (hend i)
    have e' : (follow true discActs (.cq (.poll false)) (10 + i)).cq.pc 2 = .idle := e
    rw [e'] at h
    rcases h with h | h <;> cases h
  · intro k hk _
    have e := congrArg (fun s : St Nat => s.cq.q) (hend k)
    have e' : (follow true discActs (.cq (.poll false)) (10 + k)).cq.q = [20] := e
    have := hk (10 + k) (by omega)
    rw [e'] at this; cases this
  · intro k _ hk
    obtain ⟨j, hj, b, e⟩ := hk (10 + k) (by omega)
    rw [late discActs _ (by show 10 ≤ j; omega)] at e
    cases e
  · intro j hj u hu
    show some (discActs.getD j (.cq (.poll false))) ≠ _
    by_cases hi : 10 ≤ j
    · rw [late discActs _ hi]; nofun
    · have : j = 4 ∨ j = 5 ∨ j = 6 ∨ j = 7 ∨ j = 8 ∨ j = 9 := by omega
      rcases this with rfl | rfl | rfl | rfl | rfl | rfl <;> (intro e; injection e with e; injection e with e; first | (cases e; done) | (injection e with e; exact hu e.symm))

end Verif.CqP
