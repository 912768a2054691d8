import Verif.Lemmas.ClaimFreeNext
import Verif.Spec.Fair
import Verif.Props.MultiRing

/-!
C88: claiming sequences on the ring with many producers.  `try_next` is lock-free, whatever the threads do and wherever the others are
stopped; an attempt is repeated only because another producer has got the sequence; `next` completes when it runs alone and there is room, and
waits for the processors, whatever it does, when there is none.

The executions are those of Model/MultiRing.lean: one step is at most one access to a shared variable, any number of producers and processors,
spurious failures of `compare_exchange_weak` included.
-/

namespace Verif.MRing
open Verif Verif.Disr

variable {V : Type}

/-- **C88**.  In every window of every execution with `N` producers and at most `G` gating sequences, from any state whatever, the
number of steps made inside `try_next` is bounded by the calls that come to an end in the window (with a sequence, or with the report that the
capacity is insufficient): `(N + 1) (G + 5)` for each of them and each producer, and `G + 5` for each spurious failure.  Some producers may
use `next`. -/
theorem C88_steps_paid_by_results {N G k : Nat} {s s' : St V} {as : List (Act V)} (hw : ∀ a ∈ as, InWindow N a) (hl : ListsLe G s)
    (hr : run k s as = some s') : trySteps k s as ≤ (N + 1) * (G + 5) * (ended k s as + N) + (G + 5) * weaks as := window hw hl hr

/-- In a ring to which at most `G` processors have been added, no call has more than `G` sequences to read. -/
theorem C88_lists {k : Nat} {v : V} {s : St V} {as : List (Act V)} (hr : run k (St.init v) as = some s) : ListsLe (added as) s := by
  have := lists_run (G := 0) (show ListsLe 0 (St.init v) from ⟨Nat.le_refl _, fun _ => Nat.le_refl _⟩) hr
  rwa [Nat.zero_add] at this

/-- **C88**.  Producers that make together more than `(N + 1) (G + 5) N` steps inside `try_next`, without a spurious failure, bring some call to an
end: no set of producers can make each other fail for ever. -/
theorem C88_some_call_ends {N G k : Nat} {s s' : St V} {as : List (Act V)} (hw : ∀ a ∈ as, InWindow N a) (hl : ListsLe G s)
    (hr : run k s as = some s') (h0 : weaks as = 0) (hn : (N + 1) * (G + 5) * N < trySteps k s as) : 0 < ended k s as := by
  have h1 := window hw hl hr
  rw [h0] at h1
  rcases Nat.eq_zero_or_pos (ended k s as) with e | e
  · rw [e, Nat.zero_add] at h1; omega
  · exact e

/-- The actions of an infinite execution from `n` on, `d` of them. -/
def actions (α : Nat → Option (Act V)) (n : Nat) : Nat → List (Act V)
  | 0 => []
  | d + 1 => (α n).toList ++ actions α (n + 1) d

theorem actions_run {k : Nat} {σ : Nat → St V} {α : Nat → Option (Act V)} (h : Fair.Exec (step k) σ α) : ∀ (d n : Nat),
    run k (σ n) (actions α n d) = some (σ (n + d)) ∧
    (∀ a ∈ actions α n d, ∃ m, n ≤ m ∧ α m = some a) ∧
    (0 < ended k (σ n) (actions α n d) → ∃ m p, n ≤ m ∧ α m = some (.pstep p) ∧ (σ (m + 1)).pp p = .idle) ∧
    (∀ m p, n ≤ m → m < n + d → α m = some (.pstep p) → ((σ m).pp p).inTry = true → 0 < trySteps k (σ n) (actions α n d))
  | 0, n => ⟨rfl, nofun, by simp [ended, actions], by omega⟩
  | d + 1, n => by
    obtain ⟨h1, h2, h3, h4⟩ := actions_run h d (n + 1)
    have he := h n
    cases ha : α n with
    | none =>
      rw [ha] at he
      dsimp only at he
      simp only [actions, ha, Option.toList, List.nil_append]
      rw [← he]
      refine ⟨by rw [h1, show n + 1 + d = n + (d + 1) by omega], fun a hm => ?_, fun hp => ?_, fun m p m1 m2 m3 m4 => ?_⟩
      · obtain ⟨m, m1, m2⟩ := h2 a hm; exact ⟨m, by omega, m2⟩
      · obtain ⟨m, p, m1, m2⟩ := h3 hp; exact ⟨m, p, by omega, m2⟩
      · by_cases e : m = n
        · subst e; rw [ha] at m3; cases m3
        · exact h4 m p (by omega) (by omega) m3 m4
    | some a =>
      rw [ha] at he
      dsimp only at he
      simp only [actions, ha, Option.toList, List.cons_append, List.nil_append, run, ended, trySteps, he]
      refine ⟨by rw [h1, show n + 1 + d = n + (d + 1) by omega], fun b hm => ?_, fun hp => ?_, fun m p m1 m2 m3 m4 => ?_⟩
      · rcases List.mem_cons.mp hm with rfl | hm
        · exact ⟨n, Nat.le_refl _, ha⟩
        · obtain ⟨m, m1, m2⟩ := h2 b hm; exact ⟨m, by omega, m2⟩
      · by_cases e : callEnds (σ (n + 1)) a = true
        · cases a with
          | pstep p => exact ⟨n, p, Nat.le_refl _, ha, by simpa [callEnds] using e⟩
          | _ => simp [callEnds] at e
        · rw [if_neg e, Nat.zero_add] at hp
          obtain ⟨m, p, m1, m2⟩ := h3 hp; exact ⟨m, p, by omega, m2⟩
      · by_cases e : m = n
        · subst e
          rw [ha] at m3
          cases m3
          rw [if_pos (by simpa [tryStep] using m4)]
          omega
        · have := h4 m p (by omega) (by omega) m3 m4
          omega

theorem actions_append (α : Nat → Option (Act V)) : ∀ (d n e : Nat), actions α n (d + e) = actions α n d ++ actions α (n + d) e
  | 0, n, e => by simp [actions]
  | d + 1, n, e => by
    have := actions_append α d (n + 1) e
    rw [show d + 1 + e = d + e + 1 by omega]
    simp only [actions, this, List.append_assoc]
    rw [show n + 1 + d = n + (d + 1) by omega]

theorem trySteps_append {k : Nat} {as bs : List (Act V)} : ∀ {s s' : St V}, run k s as = some s' → trySteps k s (as ++ bs) = trySteps k s as + trySteps k s' bs := by
  induction as with
  | nil => intro s s' h; simp only [run, Option.some.injEq] at h; subst h; simp [trySteps]
  | cons a as ih =>
    intro s s' h
    simp only [run] at h
    split at h
    · cases h
    · rename_i s1 hs
      simp only [List.cons_append, trySteps, hs, ih h]
      omega

/-- Again and again a step inside `try_next`: as many as one likes. -/
theorem many_steps {k : Nat} {σ : Nat → St V} {α : Nat → Option (Act V)} (h : Fair.Exec (step k) σ α)
    (hinf : ∀ n, ∃ m p, n ≤ m ∧ α m = some (.pstep p) ∧ ((σ m).pp p).inTry = true) (n : Nat) : ∀ b, ∃ d, b ≤ trySteps k (σ n) (actions α n d)
  | 0 => ⟨0, Nat.zero_le _⟩
  | b + 1 => by
    obtain ⟨d, hd⟩ := many_steps h hinf n b
    obtain ⟨m, p, m1, m2, m3⟩ := hinf (n + d)
    have h1 := (actions_run h (m - (n + d) + 1) (n + d)).2.2.2 m p m1 (by omega) m2 m3
    refine ⟨d + (m - (n + d) + 1), ?_⟩
    rw [actions_append, trySteps_append (actions_run h d n).1]
    omega

/-- **C88**: lock-freedom of `try_next`.  In every infinite execution of `N` producers in which from some time on no processor is added and
`compare_exchange_weak` does not fail spuriously: if producers go on making steps inside `try_next`, then calls go on coming to an end. -/
theorem C88_try_next_lock_free {N G k n0 : Nat} {σ : Nat → St V} {α : Nat → Option (Act V)} (h : Fair.Exec (step k) σ α)
    (hw : ∀ n a, n0 ≤ n → α n = some a → InWindow N a ∧ ∀ p, a ≠ .weak p) (hl : ∀ n, n0 ≤ n → ListsLe G (σ n))
    (hinf : ∀ n, ∃ m p, n ≤ m ∧ α m = some (.pstep p) ∧ ((σ m).pp p).inTry = true) (n : Nat) :
    ∃ m p, n ≤ m ∧ α m = some (.pstep p) ∧ (σ (m + 1)).pp p = .idle := by
  obtain ⟨d, hd⟩ := many_steps h hinf (max n n0) ((N + 1) * (G + 5) * N + 1)
  obtain ⟨h1, h2, h3, _⟩ := actions_run h d (max n n0)
  have hin : ∀ a ∈ actions α (max n n0) d, InWindow N a ∧ ∀ p, a ≠ .weak p := by
    intro a ha
    obtain ⟨m, m1, m2⟩ := h2 a ha
    exact hw m a (by omega) m2
  have hz : weaks (actions α (max n n0) d) = 0 := by
    refine List.countP_eq_zero.2 fun a ha => ?_
    have := (hin a ha).2
    cases a <;> simp
    exact absurd rfl (this _)
  obtain ⟨m, p, m1, m2⟩ := h3 (C88_some_call_ends (N := N) (G := G) (fun a ha => (hin a ha).1) (hl _ (by omega)) h1 hz (by omega))
  exact ⟨m, p, by omega, m2⟩

/-- **C88**.  Without a spurious failure, a compare-and-set of `next` or `try_next` fails only if another producer has claimed the very sequence
that was wanted. -/
theorem C88_fails_only_if_overtaken {k : Nat} {v : V} {s s' : St V} {p : Nat} {n cur : Int} (h : Reach k v s)
    (hp : s.pp p = .nCas n cur ∨ s.pp p = .tCas n cur) (hs : step k s (.pstep p) = some s') (hne : s'.pp p ≠ .idle) (hk : k ≤ 30)
    (hlim : s.cursor < (2 ^ 32 - 1) * 2 ^ k) : ∃ q lo hi, q ≠ p ∧ (q, lo, hi) ∈ s.claims ∧ lo ≤ cur + 1 ∧ cur + 1 ≤ hi := by
  have hi := (h.inv hk hlim).prod p
  have hown := h.ownBelow p cur (by rcases hp with hp | hp <;> rw [hp] <;> rfl)
  have hcur : cur < s.cursor := by
    rcases hp with hp | hp <;> rw [hp] at hi <;> obtain ⟨_, h2, _⟩ := hi
    · simp only [step, pstep, hp] at hs
      split at hs
      · cases hs; simp [claim] at hne
      · omega
    · simp only [step, pstep, hp] at hs
      split at hs
      · cases hs; simp [claim] at hne
      · omega
  have h0 := hown.1
  obtain ⟨a, ha, a1, a2⟩ := h.chain.cover (cur + 1) (by omega) (by omega)
  refine ⟨a.1, a.2.1, a.2.2, fun e => ?_, ha, a1, a2⟩
  have := hown.2 a ha e
  omega

/-- **C88**.  A producer in `next(n)`, wherever it is in the call, that runs alone while there is room for its claim, returns after at most `2 G + 10`
steps, with the next `n` sequences. -/
theorem C88_next_returns_alone {k G : Nat} {s : St V} {p : Nat} {n : Int} (hl : ListsLe G s) (hp : (s.pp p).inNext n) (hn : n ≤ 2 ^ k)
    (hr : ∀ c ∈ s.gating, s.cursor + n ≤ s.seq c + 2 ^ k) :
    ∃ j s', j ≤ 2 * G + 10 ∧ run k s (List.replicate j (.pstep p)) = some s' ∧ s'.pp p = .idle ∧ s'.claims = (p, s.cursor + 1, s.cursor + n) :: s.claims :=
  solo_run hn _ hl (Nat.lt_succ_self p) hp (fun c hc => by have := hr c hc; omega) (solo_le (hl.2 p))

/-- **C88**, boundary: `next` is not lock-free, it waits for the processors.  While a processor leaves no room, a producer in `next(n)` goes round for
ever without a result, with every number of steps. -/
theorem C88_next_waits_for_processors {k : Nat} {v : V} {s : St V} {p c : Nat} {n : Int} (h : Reach k v s) (hk : k ≤ 30)
    (hlim : s.cursor < (2 ^ 32 - 1) * 2 ^ k) (hp : (s.pp p).inNext n) (hc : c ∈ s.gating) (hf : s.seq c + 2 ^ k < s.cursor + n) (j : Nat) :
    ∃ s', run k s (List.replicate j (.pstep p)) = some s' ∧ (s'.pp p).inNext n ∧ s'.claims = s.claims := by
  induction j generalizing s with
  | zero => exact ⟨s, rfl, hp, rfl⟩
  | succ j ih =>
    obtain ⟨s1, h1, h2, h3, h4, h5, h6, h7⟩ := full_step (h.inv hk hlim) hp hc hf
    obtain ⟨s2, g1, g2, g3⟩ := ih (h.step h2 h1) (by rw [h4]; exact hlim) h3 (by rw [h5]; exact hc) (by rw [h4, h6]; exact hf)
    exact ⟨s2, by simp only [List.replicate_succ, run, h1]; exact g1, g2, by rw [g3, h7]⟩

/-- **C88**.  A call of `next(n)` returns only when there is room for its claim ahead of every registered processor. -/
theorem C88_next_returns_only_with_room {k : Nat} {v : V} {s s' : St V} {p : Nat} {n : Int} (h : Reach k v s) (hk : k ≤ 30)
    (hlim : s.cursor < (2 ^ 32 - 1) * 2 ^ k) (hp : (s.pp p).inNext n) (hs : step k s (.pstep p) = some s') (hd : s'.pp p = .idle) :
    ∀ c ∈ s.gating, s.cursor + n ≤ s.seq c + 2 ^ k := by
  intro c hc
  apply Classical.byContradiction
  intro hn
  obtain ⟨s1, h1, _, h3, _⟩ := full_step (h.inv hk hlim) hp hc (by omega)
  rw [h1] at hs
  cases hs
  rw [hd] at h3
  exact h3

/-! ### Starvation -/

/-- Producer 1 claims a sequence; then the compare-and-set of producer 0 fails and it comes back to it. -/
def starveRound : List (Act V) := .callTry 1 1 :: List.replicate 3 (.pstep 1) ++ List.replicate 5 (.pstep 0)

def starveSched : Nat → List (Act V)
  | 0 => .callTry 0 1 :: List.replicate 2 (.pstep 0)
  | r + 1 => starveSched r ++ starveRound

theorem run_append' {k : Nat} {as bs : List (Act V)} : ∀ {s s' : St V}, run k s as = some s' → run k s (as ++ bs) = run k s' bs := by
  induction as with
  | nil => intro s s' h; simp only [run, Option.some.injEq] at h; subst h; rfl
  | cons a as ih =>
    intro s s' h
    simp only [run] at h
    split at h
    · cases h
    · rename_i s1 hs
      simp only [List.cons_append, run, hs]
      exact ih h

/-- **C88**, boundary: `try_next` is not wait-free.  On a ring of one slot to which no processor has been added, so that there is always room, one other
producer is enough: for every `r` (below the limit of C24) there is an execution without a spurious failure in which producer 0 makes more than `5 r`
steps of its one call without a result, while producer 1 gets `r` sequences. -/
theorem C88_starvation_possible (v : V) (r : Nat) (hr : r + 2 < 2 ^ 31) : ∃ s : St V, run 0 (St.init v) (starveSched r) = some s ∧
    s.pp 0 = .tCas 1 ((r : Int) - 1) ∧ s.claims.map (·.1) = List.replicate r 1 ∧
    (starveSched (V := V) r).countP (fun | .pstep 0 => true | _ => false) = 5 * r + 2 ∧ weaks (starveSched (V := V) r) = 0 := by
  suffices ∃ s : St V, run 0 (St.init v) (starveSched r) = some s ∧ s.cursor = (r : Int) - 1 ∧ s.cache = (r : Int) - 1 ∧ s.gating = [] ∧ s.pp 1 = .idle ∧
      s.pp 0 = .tCas 1 ((r : Int) - 1) ∧ s.claims.map (·.1) = List.replicate r 1 ∧
      (starveSched (V := V) r).countP (fun | .pstep 0 => true | _ => false) = 5 * r + 2 ∧ weaks (starveSched (V := V) r) = 0 by
    obtain ⟨s, h1, _, _, _, _, h2⟩ := this
    exact ⟨s, h1, h2⟩
  induction r with
  | zero => exact ⟨_, rfl, rfl, rfl, rfl, rfl, rfl, rfl, rfl, rfl⟩
  | succ r ih =>
    obtain ⟨s, h1, h2, h3, h4, h5, h6, h7, h8, h9⟩ := ih (by omega)
    have e1 : toInt32 ((r : Int) - 1) = (r : Int) - 1 := toInt32_small (by omega) (by omega)
    have e2 : toInt32 (r : Int) = (r : Int) := toInt32_small (by omega) (by omega)
    have e3 : toInt32 ((r : Int) + 1) = (r : Int) + 1 := toInt32_small (by omega) (by omega)
    have e4 : ¬ (r : Int) = (r : Int) - 1 := by omega
    have e5 : (r : Int) - 1 < (r : Int) := by omega
    have hrd : ∃ s' : St V, run 0 s starveRound = some s' ∧ s'.cursor = (r : Int) ∧ s'.cache = (r : Int) ∧ s'.gating = [] ∧ s'.pp 1 = .idle ∧
        s'.pp 0 = .tCas 1 (r : Int) ∧ s'.claims.map (·.1) = 1 :: s.claims.map (·.1) := by
      simp [starveRound, List.replicate, run, step, pstep, upd_apply, claim, h2, h3, h4, h5, h6, e1, e2, e3, e4, e5]
    obtain ⟨s', g1, g2, g3, g4, g5, g6, g7⟩ := hrd
    refine ⟨s', by rw [starveSched, run_append' h1]; exact g1, by omega, by omega, g4, g5, by rw [g6]; congr 1; omega, ?_, ?_, ?_⟩
    · rw [g7, h7]; rfl
    · rw [starveSched, List.countP_append, h8]; simp [starveRound, List.replicate]; omega
    · simp only [weaks] at h9 ⊢
      rw [starveSched, List.countP_append, h9]; simp [starveRound, List.replicate]

/-! ### Concrete cases -/

/-- Two producers in `try_next`: 50 steps, 6 calls that end, more steps than the bound allows without a result. -/
example : (∀ a ∈ (starveSched 6 : List (Act Unit)), InWindow 2 a) ∧ ListsLe 0 (St.init ()) ∧ (run 0 (St.init ()) (starveSched 6)).isSome ∧
    weaks (starveSched (V := Unit) 6) = 0 ∧ (2 + 1) * (0 + 5) * 2 < trySteps 0 (St.init ()) (starveSched 6) ∧
    trySteps 0 (St.init ()) (starveSched 6) = 50 ∧ ended 0 (St.init ()) (starveSched 6) = 6 := by
  refine ⟨?_, ⟨Nat.le_refl _, fun _ => Nat.le_refl _⟩, by decide +kernel, by decide +kernel, by decide +kernel, by decide +kernel, by decide +kernel⟩
  simp [starveSched, starveRound, List.replicate, InWindow]

/-- Spurious failures: producer 0 repeats its attempt three times, 9 steps for one result. -/
example : (run 1 (St.init ()) ([.addGating 7, .callTry 0 1, .pstep 0, .pstep 0, .weak 0, .pstep 0, .pstep 0, .weak 0, .pstep 0, .pstep 0, .weak 0,
    .pstep 0, .pstep 0, .pstep 0] : List (Act Unit))).map (fun s => (s.pp 0, s.cursor, s.claims)) = some (.idle, 0, [(0, 0, 0)]) := by decide +kernel

/-- A ring of one slot, full: the one processor has read nothing. -/
def exFullSched : List (Act Unit) := [.addGating 7, .callTry 0 1, .pstep 0, .pstep 0, .pstep 0]

def exFull : St Unit := (run 0 (St.init ()) exFullSched).getD (St.init ())

theorem exFull_run : run 0 (St.init ()) exFullSched = some exFull := rfl

def exPc : Nat → PPc
  | 0 => .idle
  | 1 => .tLoad 1
  | 2 => .tCache 1 0
  | 3 => .tScan 1 0 [7] 0
  | 4 => .tScan 1 0 [] (-1)
  | _ => .tSet 1 0 (-1)

def exSt (pc : PPc) : St Unit := { exFull with pp := upd exFull.pp 0 pc }

theorem exSt_upd (pc pc' : PPc) : { exSt pc with pp := upd (exSt pc).pp 0 pc' } = exSt pc' := by
  have : upd (exSt pc).pp 0 pc' = upd exFull.pp 0 pc' := by
    funext x
    by_cases e : x = 0 <;> simp [exSt, upd, e]
  simp only [this]
  rfl

/-- Producer 0 calls `try_next(1)` again and again and is told each time that the capacity is insufficient. -/
def exα (n : Nat) : Option (Act Unit) := some (if n % 6 = 0 then .callTry 0 1 else .pstep 0)

theorem exExec : Fair.Exec (step 0) (fun n => exSt (exPc (n % 6))) exα := by
  intro n
  have hm : n % 6 < 6 := Nat.mod_lt _ (by decide)
  have hm' : (n + 1) % 6 = (n % 6 + 1) % 6 := by omega
  simp only [exα, hm']
  generalize n % 6 = m at hm
  match m, hm with
  | 0, _ => exact congrArg some (exSt_upd _ (.tLoad 1))
  | 1, _ => exact congrArg some (exSt_upd _ (.tCache 1 0))
  | 2, _ => exact congrArg some (exSt_upd _ (.tScan 1 0 [7] 0))
  | 3, _ => exact congrArg some (exSt_upd _ (.tScan 1 0 [] (-1)))
  | 4, _ => exact congrArg some (exSt_upd _ (.tSet 1 0 (-1)))
  | 5, _ => exact congrArg some (exSt_upd _ .idle)

/-- The hypotheses of `C88_try_next_lock_free` are met by this infinite execution. -/
example : Fair.Exec (step 0) (fun n => exSt (exPc (n % 6))) exα ∧ (∀ n a, 0 ≤ n → exα n = some a → InWindow 1 a ∧ ∀ p, a ≠ .weak p) ∧
    (∀ n, 0 ≤ n → ListsLe 1 (exSt (exPc (n % 6)))) ∧
    (∀ n, ∃ m p, n ≤ m ∧ exα m = some (.pstep p) ∧ ((exSt (exPc (m % 6))).pp p).inTry = true) := by
  refine ⟨exExec, fun n a _ h => ?_, fun n _ => ⟨Nat.le_refl _, fun p => ?_⟩, fun n => ⟨6 * n + 1, 0, by omega, ?_, ?_⟩⟩
  · simp only [exα, Option.some.injEq] at h
    subst h
    split <;> simp [InWindow]
  · by_cases e : p = 0
    · subst e
      have hm : n % 6 < 6 := Nat.mod_lt _ (by decide)
      generalize n % 6 = m at hm
      match m, hm with
      | 0, _ | 1, _ | 2, _ | 3, _ | 4, _ | 5, _ => exact by decide +kernel
    · have : (exSt (exPc (n % 6))).pp p = exFull.pp p := upd_other _ _ e
      rw [this, show exFull.pp p = .idle from ?_]
      · exact Nat.zero_le _
      · have : ((run 0 (St.init ()) exFullSched).map fun s => s.pp p) = some .idle := by
          have a1 : toInt32 (-1) = -1 := by decide +kernel
          have a2 : toInt32 0 = 0 := by decide +kernel
          simp [exFullSched, run, step, pstep, upd_apply, claim, St.init, e, a1, a2]
        rw [exFull_run] at this
        exact Option.some.inj this
  · simp only [exα]
    rw [if_neg (by omega)]
  · rw [show (6 * n + 1) % 6 = 1 by omega]
    rfl

/-- `next` on a ring of two with room for the claim, and on a ring of one that is full. -/
def exNextSched : List (Act Unit) := [.addGating 7, .callNext 0 1, .pstep 0, .pstep 0, .pstep 0, .callNext 1 1]

theorem exNext_reach (k : Nat) {s : St Unit} (h : run k (St.init ()) exNextSched = some s) : Reach k () s := by
  refine reach_run exNextSched .init ⟨⟨fun _ => rfl, rfl⟩, fun s' hs' => okAll_plain _ _ ?_ (by decide)⟩ h
  simp only [step] at hs'
  cases hs'
  exact fun _ => rfl

example : ∃ s : St Unit, ListsLe 1 s ∧ (s.pp 1).inNext 1 ∧ (1 : Int) ≤ 2 ^ 1 ∧ s.gating = [7] ∧ (∀ c ∈ s.gating, s.cursor + 1 ≤ s.seq c + 2 ^ 1) := by
  have hx : ((run 1 (St.init ()) exNextSched).map fun s => (s.cursor, s.gating, s.seq 7, s.pp 1)) = some (0, [7], -1, .nLoad 1) := by decide +kernel
  obtain ⟨s, hs, he⟩ := Option.map_eq_some_iff.mp hx
  simp only [Prod.mk.injEq] at he
  obtain ⟨e1, e2, e3, e4⟩ := he
  refine ⟨s, C88_lists hs, by rw [e4]; rfl, by decide, e2, fun c hc => ?_⟩
  rw [e2] at hc
  cases List.mem_singleton.mp hc
  rw [e1, e3]
  decide

example : ∃ s : St Unit, Reach 0 () s ∧ s.cursor < (2 ^ 32 - 1) * 2 ^ 0 ∧ (s.pp 1).inNext 1 ∧ 7 ∈ s.gating ∧ s.seq 7 + 2 ^ 0 < s.cursor + 1 := by
  have hx : ((run 0 (St.init ()) exNextSched).map fun s => (s.cursor, s.gating, s.seq 7, s.pp 1)) = some (0, [7], -1, .nLoad 1) := by decide +kernel
  obtain ⟨s, hs, he⟩ := Option.map_eq_some_iff.mp hx
  simp only [Prod.mk.injEq] at he
  obtain ⟨e1, e2, e3, e4⟩ := he
  exact ⟨s, exNext_reach 0 hs, by rw [e1]; decide, by rw [e4]; rfl, by rw [e2]; decide, by rw [e1, e3]; decide⟩

/-- Producer 1 wants the sequence that producer 0 has got. -/
def exOverSched : List (Act Unit) :=
  [.addGating 7, .callNext 0 1, .callNext 1 1, .pstep 0, .pstep 1, .pstep 0, .pstep 1, .pstep 0]

example : ∃ s s' : St Unit, Reach 1 () s ∧ s.pp 1 = .nCas 1 (-1) ∧ step 1 s (.pstep 1) = some s' ∧ s'.pp 1 = .nLoad 1 ∧ s.cursor = 0 ∧
    s.claims = [(0, 0, 0)] := by
  have hx : ((run 1 (St.init ()) exOverSched).map fun s => (s.cursor, s.claims, s.pp 1)) = some (0, [(0, 0, 0)], .nCas 1 (-1)) := by decide +kernel
  obtain ⟨s, hs, he⟩ := Option.map_eq_some_iff.mp hx
  simp only [Prod.mk.injEq] at he
  obtain ⟨e1, e2, e3⟩ := he
  refine ⟨s, { s with pp := upd s.pp 1 (.nLoad 1) }, ?_, e3, ?_, upd_same s.pp 1 _, e1, e2⟩
  · refine reach_run exOverSched .init ⟨⟨fun _ => rfl, rfl⟩, fun s' hs' => okAll_plain _ _ ?_ (by decide)⟩ hs
    simp only [step] at hs'
    cases hs'
    exact fun _ => rfl
  · simp only [step, pstep, e3]
    rw [if_neg (by rw [e1]; decide)]

end Verif.MRing
