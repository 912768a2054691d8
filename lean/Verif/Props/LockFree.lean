import Mathlib.Tactic.Choose
import Verif.Lemmas.LockFree

/-! Property theorems C80: the lock-free stack is lock-free. -/

namespace Verif.LFS
open Verif

variable {α : Type}

/-- C80, first part.  In every window of every execution of `N` threads, from any state whatever and under any
scheduling, the number of atomic steps is bounded by the calls that return in it: `(4 N + 4) * (returned + N)` steps,
and two more for each spurious failure of `compare_exchange_weak`. -/
theorem C80_steps_paid_by_results {N : Nat} {s s' : State α} {sched : Sched α} {h : List (Obs α)} (hN : ∀ x ∈ sched, x.1 < N)
    (hr : run s sched = some (s', h)) : sched.length ≤ (4 * N + 4) * (completed h + N) + 2 * spurious sched := window hN hr

/-- C80, first part, counted by the calls begun instead: from the constructed stack, `4 N + 4` steps for each call. -/
theorem C80_steps_paid_by_calls {N cap : Nat} {d : Nat → α} {s' : State α} {sched : Sched α} {h : List (Obs α)} (hN : ∀ x ∈ sched, x.1 < N)
    (hr : run (init cap d) sched = some (s', h)) : sched.length ≤ (4 * N + 4) * calls sched + 2 * spurious sched := by
  have h1 := run_tot hN hr
  have h2 : ∀ n, tot (val N (init cap d)) n = 0 := by
    intro n
    induction n with
    | zero => rfl
    | succ n ih =>
      have : val N (init cap d) n = 0 := by simp [val, init, PC.rem, PC.cas, stale]
      simp only [tot, ih, this]
  rw [h2] at h1
  omega

/-- C80, second part.  Of `N` threads that take together more than `(4 N + 4) N` steps without a spurious failure, some
thread returns from its call: no set of threads can make each other fail for ever, whichever other threads are stopped in
the middle of their calls. -/
theorem C80_some_call_returns {N : Nat} {s s' : State α} {sched : Sched α} {h : List (Obs α)} (hN : ∀ x ∈ sched, x.1 < N)
    (hsp : spurious sched = 0) (hlen : (4 * N + 4) * N < sched.length) (hr : run s sched = some (s', h)) :
    ∃ t c r, Obs.ret t c r ∈ h := by
  have h1 := window hN hr
  have h2 : 0 < completed h := by
    rcases Nat.eq_zero_or_pos (completed h) with e | e
    · rw [e, hsp] at h1; simp only [Nat.zero_add, Nat.mul_zero, Nat.add_zero] at h1; omega
    · exact e
  obtain ⟨o, ho, hp⟩ := List.countP_pos_iff.1 h2
  cases o with
  | inv t c => simp at hp
  | ret t c r => exact ⟨t, c, r, ho⟩

/-- An infinite execution of the stack: states, and the step taken at each instant with what it shows. -/
structure Exec (α : Type) where
  st : Nat → State α
  act : Nat → Nat × Act α
  obs : Nat → List (Obs α)
  ok : ∀ n, step (st n) (act n).1 (act n).2 = some (st (n + 1), obs n)

/-- The steps `n`, …, `n + k - 1`. -/
def Exec.window (e : Exec α) (n : Nat) : Nat → Sched α
  | 0 => []
  | k + 1 => e.act n :: e.window (n + 1) k

theorem Exec.window_length (e : Exec α) : ∀ (k n : Nat), (e.window n k).length = k
  | 0, _ => rfl
  | k + 1, n => by simp [Exec.window, Exec.window_length e k]

theorem Exec.window_mem (e : Exec α) {x : Nat × Act α} : ∀ {k n : Nat}, x ∈ e.window n k → ∃ m, n ≤ m ∧ m < n + k ∧ x = e.act m
  | 0, _, h => by cases h
  | k + 1, n, h => by
    rcases List.mem_cons.1 h with rfl | h
    · exact ⟨n, Nat.le_refl _, by omega, rfl⟩
    · obtain ⟨m, h1, h2, h3⟩ := Exec.window_mem e h
      exact ⟨m, by omega, by omega, h3⟩

theorem Exec.window_run (e : Exec α) : ∀ (k n : Nat), ∃ h, run (e.st n) (e.window n k) = some (e.st (n + k), h) ∧
    ∀ o ∈ h, ∃ m, n ≤ m ∧ m < n + k ∧ o ∈ e.obs m
  | 0, n => ⟨[], rfl, nofun⟩
  | k + 1, n => by
    obtain ⟨h, h1, h2⟩ := Exec.window_run e k (n + 1)
    refine ⟨e.obs n ++ h, ?_, ?_⟩
    · simp only [Exec.window, run, e.ok n, h1, show n + (k + 1) = n + 1 + k by omega]
    · intro o ho
      rcases List.mem_append.1 ho with ho | ho
      · exact ⟨n, Nat.le_refl _, by omega, ho⟩
      · obtain ⟨m, h3, h4, h5⟩ := h2 o ho
        exact ⟨m, by omega, by omega, h5⟩

/-- C80, third part: lock-freedom.  In every infinite execution of `N` threads in which `compare_exchange_weak` fails
spuriously only finitely often, infinitely many calls return: after every instant `n` some call returns, at the latest
`(4 N + 4) N + 1` steps after `n` and after the last spurious failure. -/
theorem C80_lock_free {N : Nat} (e : Exec α) (hN : ∀ n, (e.act n).1 < N) {n0 : Nat} (hsp : ∀ n, n0 ≤ n → (e.act n).2 ≠ .go true) (n : Nat) :
    ∃ m t c r, n ≤ m ∧ m < max n n0 + ((4 * N + 4) * N + 1) ∧ Obs.ret t c r ∈ e.obs m := by
  obtain ⟨h, h1, h2⟩ := e.window_run ((4 * N + 4) * N + 1) (max n n0)
  obtain ⟨t, c, r, h3⟩ := C80_some_call_returns (N := N)
    (fun x hx => by obtain ⟨m, _, _, rfl⟩ := e.window_mem hx; exact hN m)
    (by
      refine List.countP_eq_zero.2 fun x hx => ?_
      obtain ⟨m, h3, _, rfl⟩ := e.window_mem hx
      have h4 := hsp m (by omega)
      split
      · rename_i h5; exact absurd h5 h4
      · simp)
    (by rw [e.window_length]; omega) h1
  obtain ⟨m, h4, h5, h6⟩ := h2 _ h3
  exact ⟨m, t, c, r, by omega, h5, h6⟩

/-- The steps of one round of the starvation below: thread 1 pops and pushes, then thread 0 reads the link and tries its
compare-and-swap. -/
def starveRound (x : α) : Sched α :=
  (1, .call .pop) :: List.replicate 7 (1, .go false) ++ (1, .call (.push x)) :: List.replicate 7 (1, .go false) ++ [(0, .go false), (0, .go false)]

def starveSched (x : α) : Nat → Sched α
  | 0 => [(0, .call .pop), (0, .go false)]
  | k + 1 => starveSched x k ++ starveRound x

/-- What holds before every round. -/
structure Starve (s : State α) : Prop where
  pc0 : ∃ v, s.pc 0 = .loaded .pop (s.hd .head) v
  hidx : (s.hd .head).idx = 0
  haba : (s.hd .head).aba < 65536
  fidx : (s.hd .free).idx = UNDEF
  link : s.nxt 0 = UNDEF
  pc1 : s.pc 1 = .idle

theorem Starve.round {s : State α} (hs : Starve s) (x : α) :
    ∃ s', run s (starveRound x) = some (s', [.inv 1 .pop, .ret 1 .pop (.popped (some (s.data 0))), .inv 1 (.push x), .ret 1 (.push x) (.pushed true)]) ∧ Starve s' := by
  obtain ⟨⟨v, h0⟩, h1, ha, h2, h3, h4⟩ := hs
  obtain ⟨nxt, data, hd, ver, pc⟩ := s
  dsimp only at h0 h1 ha h2 h3 h4
  have e : hd .head = ⟨(hd .head).aba, 0⟩ := by rw [← h1]
  have f : hd .free = ⟨(hd .free).aba, UNDEF⟩ := by rw [← h2]
  generalize (hd .head).aba = a at e ha
  generalize (hd .free).aba = b at f
  have hne : ¬ (a + 1 + 1) % 65536 = a := by omega
  simp [starveRound, List.replicate, run, step, upd_apply, h0, h3, h4, e, f, Call.src, Call.dst, Call.okRes, Head.bump, UNDEF, TAGS, hne]
  exact ⟨⟨_, by simp [upd_apply]; rfl⟩, by simp [upd_apply], by simp [upd_apply]; omega, by simp [upd_apply, UNDEF], by simp [upd_apply, UNDEF], by simp [upd_apply]⟩

theorem run_append {s1 s2 s3 : State α} {a b : Sched α} {h1 h2 : List (Obs α)} (ha : run s1 a = some (s2, h1)) (hb : run s2 b = some (s3, h2)) :
    run s1 (a ++ b) = some (s3, h1 ++ h2) := by
  induction a generalizing s1 h1 with
  | nil => simp only [run, Option.some.injEq, Prod.mk.injEq] at ha; obtain ⟨rfl, rfl⟩ := ha; exact hb
  | cons x r ih =>
    obtain ⟨t, a⟩ := x
    simp only [run] at ha
    split at ha
    · cases ha
    · rename_i s' o hs
      split at ha
      · cases ha
      · rename_i s'' h'' hr
        simp only [Option.some.injEq, Prod.mk.injEq] at ha
        obtain ⟨rfl, rfl⟩ := ha
        simp only [List.cons_append, run, hs, ih hr, List.append_assoc]

/-- C80, boundary: the stack is not wait-free.  Without a spurious failure and with only one other thread, a `pop` on a
stack that holds its element at every instant at which it looks can retry for ever: for every `k` there is an execution in
which thread 0 has taken more than `2 k` steps of its one `pop` without a result while `2 k` calls of thread 1 have returned. -/
theorem C80_starvation_possible (d : Nat → α) (x : α) (k : Nat) : ∃ s h, run (init 1 d) (starveSched x k) = some (s, h) ∧
    completedBy 0 h = 0 ∧ completedBy 1 h = 2 * k ∧ stepsOf 0 (starveSched x k) = 2 * k + 2 ∧ spurious (starveSched x k) = 0 ∧
    (∀ y ∈ starveSched x k, y.1 < 2) := by
  suffices ∃ s h, run (init 1 d) (starveSched x k) = some (s, h) ∧ Starve s ∧
    completedBy 0 h = 0 ∧ completedBy 1 h = 2 * k ∧ stepsOf 0 (starveSched x k) = 2 * k + 2 ∧ spurious (starveSched x k) = 0 ∧
    (∀ y ∈ starveSched x k, y.1 < 2) by
    obtain ⟨s, h, h1, _, h2⟩ := this
    exact ⟨s, h, h1, h2⟩
  induction k with
  | zero =>
    exact ⟨_, _, rfl, ⟨⟨_, rfl⟩, rfl, Nat.zero_lt_succ _, rfl, rfl, rfl⟩, rfl, rfl, rfl, rfl, by simp [starveSched]⟩
  | succ k ih =>
    obtain ⟨s, h, h1, h2, h3, h4, h5, h6, h7⟩ := ih
    obtain ⟨s', h8, h9⟩ := h2.round x
    refine ⟨s', _, run_append h1 h8, h9, ?_, ?_, ?_, ?_, ?_⟩
    · simp only [completedBy, List.countP_append] at h3 ⊢; rw [h3]; rfl
    · simp only [completedBy, List.countP_append] at h4 ⊢; rw [h4]; rfl
    · simp only [starveSched, stepsOf, List.countP_append] at h5 ⊢; rw [h5]; rfl
    · simp only [starveSched, spurious, List.countP_append] at h6 ⊢; rw [h6]; rfl
    · intro y hy
      rcases List.mem_append.1 hy with hy | hy
      · exact h7 y hy
      · simp [starveRound, List.replicate] at hy
        rcases hy with rfl | rfl | rfl | rfl | rfl <;> simp

/-- Concrete case: two threads pop the same element of a stack of two; the compare-and-swap of the first fails once; 16
steps, two calls. -/
theorem C80_example : ∃ s h, run (init 2 id) ([(0, .call .pop), (1, .call .pop), (0, .go false), (1, .go false), (0, .go false), (1, .go false),
      (1, .go false), (0, .go false)] ++ List.replicate 4 (1, .go false) ++ List.replicate 6 (0, .go false) : Sched Nat) = some (s, h) ∧
    completed h = 2 ∧ h = [.inv 0 .pop, .inv 1 .pop, .ret 1 .pop (.popped (some 0)), .ret 0 .pop (.popped (some 1))] :=
  ⟨_, _, rfl, rfl, rfl⟩

/-- The second part does not speak of nothing: an execution of two threads longer than 24 steps without a spurious failure. -/
theorem C80_example_long : ∃ s h, run (init 1 id) (starveSched 7 1 ++ starveRound 7) = some (s, h) ∧
    (4 * 2 + 4) * 2 < (starveSched 7 1 ++ starveRound 7).length ∧ spurious (starveSched 7 1 ++ starveRound 7) = 0 :=
  ⟨_, _, rfl, by decide, rfl⟩

theorem step_total (s : State α) (t : Nat) (c : Call α) : ∃ a x, a ≠ .go true ∧ step s t a = some x := by
  cases hp : s.pc t with
  | idle => exact ⟨.call c, _, nofun, by simp only [step, hp]; rfl⟩
  | holds c i => cases c <;> exact ⟨.go false, _, nofun, by simp only [step, hp]; rfl⟩
  | start c => exact ⟨.go false, _, nofun, by simp only [step, hp]; rfl⟩
  | filled c i v => exact ⟨.go false, _, nofun, by simp only [step, hp]; rfl⟩
  | pLoaded c i v o => exact ⟨.go false, _, nofun, by simp only [step, hp]; rfl⟩
  | loaded c o v => by_cases h : o.idx = UNDEF <;> exact ⟨.go false, _, nofun, by simp only [step, hp, h, if_true, if_false]; rfl⟩
  | linkRead c o v n => by_cases h : s.hd c.src = o <;> exact ⟨.go false, _, nofun, by simp only [step, hp, h, true_and, false_and, if_true, if_false]; rfl⟩
  | pLinked c i v o => by_cases h : s.hd c.dst = o <;> exact ⟨.go false, _, nofun, by simp only [step, hp, h, true_and, false_and, if_true, if_false]; rfl⟩

/-- The hypotheses of `C80_lock_free` are met by every way of scheduling the threads and every sequence of calls: whichever
thread the scheduler picks can take a step, so an infinite execution of the constructed stack follows any scheduler. -/
theorem C80_example_executions (cap : Nat) (d : Nat → α) (who : Nat → Nat) (what : Nat → Call α) :
    ∃ e : Exec α, e.st 0 = init cap d ∧ (∀ n, (e.act n).1 = who n) ∧ ∀ n, (e.act n).2 ≠ .go true := by
  choose a x h1 h2 using fun (s : State α) (n : Nat) => step_total s (who n) (what n)
  let st : Nat → State α := fun n => Nat.rec (init cap d) (fun n s => (x s n).1) n
  exact ⟨⟨st, fun n => (who n, a (st n) n), fun n => (x (st n) n).2, fun n => h2 (st n) n⟩, rfl, fun _ => rfl, fun n => h1 (st n) n⟩

end Verif.LFS
