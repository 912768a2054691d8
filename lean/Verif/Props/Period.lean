import Verif.Model.Period
import Verif.Lemmas.Sequencer
import Mathlib.Tactic.Ring

/-!
C74: the times at which a scheduled task is called.  `run e p (St.init t0) rs` ranges over all executions of the thread of a repeated task: `rs`
says how long every part of every round takes (oversleeping, the task, delays in between), `e` what the system clock shows and when `stop` is called.
-/

namespace Verif.Period
open Verif Verif.Disr

/-- Nobody sets the system clock. -/
def Steady (e : Env) : Prop := ∃ c : Int, ∀ t : Nat, e.clk t = t + c

/-- The time between the two readings of the clock: the task and the delays around it. -/
def Round.busy (r : Round) : Nat := r.call + r.dur + r.ret

/-- What is known after rounds `rs`. -/
structure Inv (e : Env) (p : Int) (t0 : Nat) (rs : List Round) (s : St) : Prop where
  len : s.calls.length ≤ rs.length
  full : s.ended = false → s.calls.length = rs.length
  first : s.calls = [] → s.now = t0 ∧ s.before = 0 ∧ s.after = 0
  shape : ∀ (i : Nat) (c : Call) (r : Round), s.calls[i]? = some c → rs[i]? = some r → c.beg = c.due + r.call ∧ c.fin = c.beg + r.dur
  head : ∀ (c : Call) (r : Round), s.calls[0]? = some c → rs[0]? = some r → c.due = t0 + (sleepTime p 0 0).toNat + r.over ∧ e.running t0 = true
  last : ∀ (i : Nat) (c : Call) (r : Round), s.calls.length = i + 1 → s.calls[i]? = some c → rs[i]? = some r →
    s.now = c.due + r.busy + r.test ∧ s.before = e.clk c.due ∧ s.after = e.clk (c.due + r.busy)
  gap : ∀ (i : Nat) (c c' : Call) (r r' : Round), s.calls[i]? = some c → s.calls[i + 1]? = some c' → rs[i]? = some r → rs[i + 1]? = some r' →
    c'.due = c.due + r.busy + r.test + (sleepTime p (e.clk c.due) (e.clk (c.due + r.busy))).toNat + r'.over ∧
      e.running (c.due + r.busy + r.test) = true
  fin : s.ended = true → e.running s.now = false

theorem run_append (e : Env) (p : Int) (s : St) (rs : List Round) (r : Round) : run e p s (rs ++ [r]) = round e p (run e p s rs) r := by
  induction rs generalizing s with
  | nil => rfl
  | cons a rs ih => exact ih _

theorem inv_run (e : Env) (p : Int) (t0 : Nat) (rs : List Round) : Inv e p t0 rs (run e p (St.init t0) rs) := by
  induction rs using List.reverseRecOn with
  | nil => exact ⟨Nat.le_refl 0, fun _ => rfl, fun _ => ⟨rfl, rfl, rfl⟩, nofun, nofun, nofun, nofun, nofun⟩
  | append_singleton rs r ih =>
    rw [run_append]
    generalize run e p (St.init t0) rs = s at ih
    unfold round
    have old : ∀ (i : Nat) (c : Call) (q : Round), s.calls[i]? = some c → (rs ++ [r])[i]? = some q → rs[i]? = some q := by
      intro i c q hc hq
      have hi : i < s.calls.length := (List.getElem?_eq_some_iff.mp hc).1
      rwa [List.getElem?_append_left (Nat.lt_of_lt_of_le hi ih.len)] at hq
    have same : Inv e p t0 (rs ++ [r]) { s with ended := true } ∨ e.running s.now = true := by
      cases hrun : e.running s.now with
      | true => exact Or.inr rfl
      | false =>
        left
        exact ⟨by have := ih.len; simp; omega, nofun, ih.first, fun i c q hc hq => ih.shape i c q hc (old i c q hc hq),
          fun c q hc hq => ih.head c q hc (old 0 c q hc hq), fun i c q hl hc hq => ih.last i c q hl hc (old i c q hc hq),
          fun i c c' q q' hc hc' hq hq' => ih.gap i c c' q q' hc hc' (old i c q hc hq) (old _ c' q' hc' hq'), fun _ => hrun⟩
    cases he : s.ended with
    | true =>
      have e1 : s = { s with ended := true } := by cases s; cases he; rfl
      rw [if_pos rfl]
      rcases same with h | h
      · rw [← e1] at h; exact h
      · rw [ih.fin he] at h; cases h
    | false =>
      rw [if_neg (by decide)]
      by_cases hrun : e.running s.now = true
      · rw [if_pos hrun]
        have hlen := ih.full he
        have new : ∀ (i : Nat) (c : Call) (q : Round), ∀ d : Call, (s.calls ++ [d])[i]? = some c → (rs ++ [r])[i]? = some q →
            (s.calls[i]? = some c ∧ rs[i]? = some q) ∨ (i = s.calls.length ∧ c = d ∧ q = r) := by
          intro i c q d hc hq
          by_cases hi : i < s.calls.length
          · rw [List.getElem?_append_left hi] at hc
            exact Or.inl ⟨hc, old i c q hc hq⟩
          · have : i = s.calls.length := by
              have := (List.getElem?_eq_some_iff.mp hc).1
              simp at this; omega
            subst this
            rw [List.getElem?_append_right (Nat.le_refl _)] at hc
            rw [hlen, List.getElem?_append_right (Nat.le_refl _)] at hq
            simp at hc hq
            exact Or.inr ⟨rfl, hc.symm, hq.symm⟩
        have busy1 : ∀ x : Nat, x + r.call + r.dur + r.ret = x + r.busy := by intro x; simp [Round.busy]; omega
        refine ⟨by simp [hlen], fun _ => by simp [hlen], fun h => by simp at h, ?_, ?_, ?_, ?_, nofun⟩
        · intro i c q hc hq
          rcases new i c q _ hc hq with ⟨h1, h2⟩ | ⟨_, rfl, rfl⟩
          · exact ih.shape i c q h1 h2
          · exact ⟨rfl, rfl⟩
        · intro c q hc hq
          rcases new 0 c q _ hc hq with ⟨h1, h2⟩ | ⟨h0, rfl, rfl⟩
          · exact ih.head c q h1 h2
          · obtain ⟨h1, h2, h3⟩ := ih.first (List.eq_nil_of_length_eq_zero h0.symm)
            dsimp only
            rw [h1, h2, h3]
            rw [h1] at hrun
            exact ⟨rfl, hrun⟩
        · intro i c q hl hc hq
          rcases new i c q _ hc hq with ⟨h1, h2⟩ | ⟨_, rfl, rfl⟩
          · have := (List.getElem?_eq_some_iff.mp h1).1
            simp at hl; omega
          · dsimp only
            rw [busy1]
            exact ⟨rfl, rfl, rfl⟩
        · intro i c c' q q' hc hc' hq hq'
          rcases new (i + 1) c' q' _ hc' hq' with ⟨h1, h2⟩ | ⟨hi, rfl, rfl⟩
          · have hi := (List.getElem?_eq_some_iff.mp h1).1
            rcases new i c q _ hc hq with ⟨h3, h4⟩ | ⟨h, _, _⟩
            · exact ih.gap i c c' q q' h3 h1 h4 h2
            · omega
          · rcases new i c q _ hc hq with ⟨h3, h4⟩ | ⟨h, _, _⟩
            · obtain ⟨h5, h6, h7⟩ := ih.last i c q hi.symm h3 h4
              dsimp only
              rw [h6, h7, h5]
              rw [h5] at hrun
              exact ⟨rfl, hrun⟩
            · omega
      · rw [if_neg hrun]
        rcases same with h | h
        · exact h
        · exact absurd h hrun

/-- The range of `int`. -/
def IsInt (p : Int) : Prop := -2 ^ 31 ≤ p ∧ p < 2 ^ 31

theorem sleep_first {p : Int} (h : IsInt p) : (sleepTime p 0 0).toNat = p.toNat := by
  unfold sleepTime
  rw [toInt32_small (by have := h.1; omega) (by have := h.2; omega)]
  simp

/-- With a clock nobody sets, the time asked for is right unless the task takes longer than `2^31` microseconds and the period. -/
theorem sleep_steady {e : Env} (hs : Steady e) {p : Int} (h : IsInt p) (t d : Nat) (hd : (d : Int) ≤ p + 2 ^ 31) :
    (sleepTime p (e.clk t) (e.clk (t + d))).toNat = (p - d).toNat := by
  obtain ⟨c, hc⟩ := hs
  have := h.1
  have := h.2
  unfold sleepTime
  rw [hc, hc, toInt32_small (by push_cast; omega) (by push_cast; omega)]
  congr 1
  push_cast
  omega

theorem sleep_steady_ge {e : Env} (hs : Steady e) {p : Int} (h : IsInt p) (t d : Nat) :
    p ≤ (sleepTime p (e.clk t) (e.clk (t + d))).toNat + d := by
  by_cases hd : (d : Int) ≤ p + 2 ^ 31
  · rw [sleep_steady hs h t d hd]; omega
  · omega

/-! ### The claims -/

/-- **C74, never early.** With a clock nobody sets, a repeated task with period `p` is called for the `n`-th time not before `n` periods have passed since
the thread was started, each call is due at least a period after the one before, and calls do not overlap — however long the task and the delays
take.
Missing: clocks that are set, `C74_violation_clock_set_forward`. -/
theorem C74_never_early_partial {e : Env} (hs : Steady e) {p : Int} (hp : IsInt p) (t0 : Nat) (rs : List Round) :
    (∀ (n : Nat) (c : Call), (run e p (St.init t0) rs).calls[n]? = some c → t0 + (n + 1) * p ≤ c.due ∧ c.due ≤ c.beg ∧ c.beg ≤ c.fin) ∧
    (∀ (n : Nat) (c c' : Call), (run e p (St.init t0) rs).calls[n]? = some c → (run e p (St.init t0) rs).calls[n + 1]? = some c' →
      c.due + p ≤ c'.due ∧ c.fin ≤ c'.beg) := by
  have hi := inv_run e p t0 rs
  generalize run e p (St.init t0) rs = s at hi
  have rnd : ∀ (n : Nat) (c : Call), s.calls[n]? = some c → ∃ r, rs[n]? = some r := by
    intro n c hc
    have h1 := (List.getElem?_eq_some_iff.mp hc).1
    exact ⟨rs[n]'(Nat.lt_of_lt_of_le h1 hi.len), List.getElem?_eq_getElem _⟩
  have step : ∀ (n : Nat) (c c' : Call), s.calls[n]? = some c → s.calls[n + 1]? = some c' → c.due + p ≤ c'.due ∧ c.fin ≤ c'.beg := by
    intro n c c' hc hc'
    obtain ⟨r, hr⟩ := rnd n c hc
    obtain ⟨r', hr'⟩ := rnd _ c' hc'
    obtain ⟨h1, _⟩ := hi.gap n c c' r r' hc hc' hr hr'
    obtain ⟨h2, h3⟩ := hi.shape n c r hc hr
    obtain ⟨h4, _⟩ := hi.shape _ c' r' hc' hr'
    have := sleep_steady_ge hs hp c.due r.busy
    constructor
    · rw [h1]; push_cast; omega
    · rw [h3, h2, h4, h1]; simp only [Round.busy]; omega
  refine ⟨fun n c hc => ⟨?_, ?_⟩, step⟩
  · induction n generalizing c with
    | zero =>
      obtain ⟨r, hr⟩ := rnd 0 c hc
      obtain ⟨h1, _⟩ := hi.head c r hc hr
      rw [sleep_first hp] at h1
      rw [h1]; push_cast; omega
    | succ n ih =>
      have hl := (List.getElem?_eq_some_iff.mp hc).1
      have hn : s.calls[n]? = some (s.calls[n]'(by omega)) := List.getElem?_eq_getElem _
      have h1 := ih _ hn
      have h2 := (step n _ c hn hc).1
      have e1 : ((n + 1 : Nat) + 1 : Int) * p = ((n : Int) + 1) * p + p := by push_cast; ring
      rw [e1]; omega
  · obtain ⟨r, hr⟩ := rnd n c hc
    obtain ⟨h2, h3⟩ := hi.shape n c r hc hr
    omega

/-- **C74, the period.** If moreover the task and the delays around it take at most `2^31` microseconds more than the period, the next call is due
exactly when the longer of period and task is over, plus the delays of the system: oversleeping and the test of the flag.
Missing: clocks that are set and longer calls, `C74_violation_clock_set_back`, `C74_violation_long_task`. -/
theorem C74_period_exact_partial {e : Env} (hs : Steady e) {p : Int} (hp : IsInt p) (t0 : Nat) (rs : List Round) {n : Nat} {c c' : Call} {r r' : Round}
    (hc : (run e p (St.init t0) rs).calls[n]? = some c) (hc' : (run e p (St.init t0) rs).calls[n + 1]? = some c') (hr : rs[n]? = some r)
    (hr' : rs[n + 1]? = some r') (hd : (r.busy : Int) ≤ p + 2 ^ 31) : (c'.due : Int) = c.due + max p r.busy + r.test + r'.over := by
  obtain ⟨h1, _⟩ := (inv_run e p t0 rs).gap n c c' r r' hc hc' hr hr'
  rw [sleep_steady hs hp _ _ hd] at h1
  rw [h1]; push_cast; omega

/-- **C74, no overruns.** If the task and the delays around it always fit into the period and the system delays every round by at most `L`, the `n`-th call
is due at most `n * L` after `n` periods; without delays exactly then.
Missing: clocks that are set. -/
theorem C74_on_time_partial {e : Env} (hs : Steady e) {p : Int} (hp : IsInt p) (t0 : Nat) (rs : List Round) (L : Nat)
    (hd : ∀ r ∈ rs, (r.busy : Int) ≤ p ∧ r.over + r.test ≤ L) {n : Nat} {c : Call} (hc : (run e p (St.init t0) rs).calls[n]? = some c) :
    t0 + (n + 1) * p ≤ c.due ∧ (c.due : Int) ≤ t0 + (n + 1) * (p + L) := by
  refine ⟨((C74_never_early_partial hs hp t0 rs).1 n c hc).1, ?_⟩
  have hi := inv_run e p t0 rs
  generalize hse : run e p (St.init t0) rs = s at hi hc
  suffices h : ∀ (n : Nat) (c : Call) (r : Round), s.calls[n]? = some c → rs[n]? = some r → (c.due : Int) + r.test ≤ t0 + (n + 1) * (p + L) by
    have h1 := (List.getElem?_eq_some_iff.mp hc).1
    have := h n c _ hc (List.getElem?_eq_getElem (Nat.lt_of_lt_of_le h1 hi.len))
    omega
  intro n
  induction n with
  | zero =>
    intro c r hc hr
    obtain ⟨h1, _⟩ := hi.head c r hc hr
    obtain ⟨h2, h3⟩ := hd r (List.mem_of_getElem? hr)
    rw [sleep_first hp] at h1
    rw [h1]; push_cast; omega
  | succ n ih =>
    intro c r' hc hr'
    have hl := (List.getElem?_eq_some_iff.mp hc).1
    obtain ⟨d, hn⟩ : ∃ d, s.calls[n]? = some d := ⟨_, List.getElem?_eq_getElem (by omega)⟩
    obtain ⟨q, hrn⟩ : ∃ q, rs[n]? = some q := ⟨_, List.getElem?_eq_getElem (by have := hi.len; omega)⟩
    have h1 := ih _ _ hn hrn
    rw [← hse] at hn hc
    obtain ⟨h2, h3⟩ := hd _ (List.mem_of_getElem? hrn)
    obtain ⟨h4, h5⟩ := hd _ (List.mem_of_getElem? hr')
    have h6 := C74_period_exact_partial hs hp t0 rs hn hc hrn hr' (by omega)
    rw [h6, max_eq_left h2]
    have e1 : ((n + 1 : Nat) + 1 : Int) * (p + L) = ((n : Int) + 1) * (p + L) + (p + L) := by push_cast; ring
    rw [e1]
    omega

/-- **C74, stop.** Of the calls that begin after `stop` has cleared the flag there is at most one, and it is the last. -/
theorem C74_one_call_after_stop {e : Env} {T : Nat} (hT : e.stop = some T) (p : Int) (t0 : Nat) (rs : List Round) {i j : Nat} {c c' : Call}
    (hc : (run e p (St.init t0) rs).calls[i]? = some c) (hc' : (run e p (St.init t0) rs).calls[j]? = some c') (hb : T ≤ c.beg) : j ≤ i := by
  have hi := inv_run e p t0 rs
  generalize run e p (St.init t0) rs = s at hi hc hc'
  by_contra hlt
  have hl := (List.getElem?_eq_some_iff.mp hc').1
  obtain ⟨d, hn⟩ : ∃ d, s.calls[i + 1]? = some d := ⟨_, List.getElem?_eq_getElem (by omega)⟩
  obtain ⟨r, hr⟩ : ∃ r, rs[i]? = some r := ⟨_, List.getElem?_eq_getElem (by have := hi.len; omega)⟩
  obtain ⟨r', hr'⟩ : ∃ r', rs[i + 1]? = some r' := ⟨_, List.getElem?_eq_getElem (by have := hi.len; omega)⟩
  obtain ⟨_, h1⟩ := hi.gap i c _ _ _ hc hn hr hr'
  obtain ⟨h2, h3⟩ := hi.shape i c _ hc hr
  have h4 : c.due + r.busy + r.test < T := by simpa [Env.running, hT] using h1
  simp only [Round.busy] at h4
  omega

/-- **C74, stop, how long it takes.** The thread ends as soon as the round in which `stop` came is over: with a clock nobody sets and tasks within `2^31`
microseconds of the period, at most a period, a call and the delays of one round after `stop`.
Missing: clocks that are set and longer calls. -/
theorem C74_stop_delay_partial {e : Env} (hs : Steady e) {p : Int} (hp : IsInt p) {T : Nat} (hT : e.stop = some T) {t0 : Nat} (h0 : t0 ≤ T) (rs : List Round) (B : Nat)
    (hB : ∀ r ∈ rs, r.over + r.busy + r.test ≤ B) (hlong : ∀ r ∈ rs, (r.busy : Int) ≤ p + 2 ^ 31) :
    (run e p (St.init t0) rs).now ≤ T + p.toNat + B := by
  have hi := inv_run e p t0 rs
  generalize run e p (St.init t0) rs = s at hi
  cases hn : s.calls.length with
  | zero =>
    obtain ⟨h1, _⟩ := hi.first (List.eq_nil_of_length_eq_zero hn)
    omega
  | succ n =>
    have hc : s.calls[n]? = some (s.calls[n]'(by omega)) := List.getElem?_eq_getElem _
    have hr : rs[n]? = some (rs[n]'(by have := hi.len; omega)) := List.getElem?_eq_getElem _
    obtain ⟨h1, _, _⟩ := hi.last n _ _ hn hc hr
    have hb := hB _ (List.mem_of_getElem? hr)
    cases n with
    | zero =>
      obtain ⟨h2, _⟩ := hi.head _ _ hc hr
      rw [sleep_first hp] at h2
      omega
    | succ n =>
      have hc2 : s.calls[n]? = some (s.calls[n]'(by omega)) := List.getElem?_eq_getElem _
      have hr2 : rs[n]? = some (rs[n]'(by have := hi.len; omega)) := List.getElem?_eq_getElem _
      obtain ⟨h2, h3⟩ := hi.gap n _ _ _ _ hc2 hc hr2 hr
      rw [sleep_steady hs hp _ _ (hlong _ (List.mem_of_getElem? hr2))] at h2
      simp only [Env.running, hT, decide_eq_true_eq] at h3
      omega

/-- **C74, the thread ends.** A round that starts after `stop` calls nothing and ends the thread; before `stop` every round calls the task once. -/
theorem C74_round {e : Env} (p : Int) (t0 : Nat) (rs : List Round) (r : Round) (he : (run e p (St.init t0) rs).ended = false) :
    (e.running (run e p (St.init t0) rs).now = true →
      (run e p (St.init t0) (rs ++ [r])).calls.length = (run e p (St.init t0) rs).calls.length + 1) ∧
    (e.running (run e p (St.init t0) rs).now = false → (run e p (St.init t0) (rs ++ [r])).ended = true ∧
      (run e p (St.init t0) (rs ++ [r])).calls = (run e p (St.init t0) rs).calls) := by
  rw [run_append]
  constructor <;> intro h <;> simp [round, he, h]

/-- **C74, not repeated.** The task is called exactly once, not before `p` microseconds, unless `stop` came before the thread looked at the flag. -/
theorem C74_one_shot (e : Env) (p : Int) (t0 : Nat) (r : Round) :
    (e.running t0 = true → ∃ c, oneShot e p t0 r = [c] ∧ t0 + p ≤ c.beg ∧ (c.beg : Int) = t0 + max p 0 + r.over + r.call ∧ c.fin = c.beg + r.dur) ∧
    (e.running t0 = false → oneShot e p t0 r = []) := by
  constructor <;> intro h <;> simp only [oneShot, h, if_true, Bool.false_eq_true, if_false]
  refine ⟨_, rfl, ?_, ?_, rfl⟩ <;> dsimp only <;> push_cast <;> omega

/-! ### Violations -/

/-- **C74 fails when the clock is set back** during a call: the next call comes later by the amount set back, for every amount below `2^31` microseconds
(about 35 minutes). -/
theorem C74_violation_clock_set_back {p : Int} (hp : 0 ≤ p) (x : Nat) (hx : p + x < 2 ^ 31) :
    ∃ (e : Env) (rs : List Round), (∀ r ∈ rs, r = ⟨0, 0, 0, 1, 0⟩) ∧
      ∃ c c', (run e p (St.init 0) rs).calls = [c, c'] ∧ (c'.due : Int) = c.due + 1 + (p + x) := by
  refine ⟨⟨fun t => if t ≤ p.toNat then t else t - 1 - x, none⟩, [⟨0, 0, 0, 1, 0⟩, ⟨0, 0, 0, 1, 0⟩], by simp, ?_⟩
  have h0 : sleepTime p 0 0 = p := by
    unfold sleepTime; rw [toInt32_small (by omega) (by omega)]; omega
  have h1 : sleepTime p p.toNat ((p.toNat : Int) + 1 - 1 - x) = p + x := by
    unfold sleepTime; rw [toInt32_small (by omega) (by omega)]; omega
  refine ⟨⟨p.toNat, p.toNat, p.toNat⟩, ⟨p.toNat + 1 + (p + x).toNat, p.toNat + 1 + (p + x).toNat, p.toNat + 1 + (p + x).toNat⟩, ?_, ?_⟩
  · simp [run, round, St.init, Env.running, h0]
    simpa using congrArg Int.toNat h1
  · dsimp only; push_cast; omega

/-- **C74 fails when the clock is set forward** during a call: the next call comes at once. -/
theorem C74_violation_clock_set_forward {p : Int} (hp : 0 ≤ p) (hx : p < 2 ^ 31) :
    ∃ (e : Env) (rs : List Round), (∀ r ∈ rs, r = ⟨0, 0, 0, 1, 0⟩) ∧
      ∃ c c', (run e p (St.init 0) rs).calls = [c, c'] ∧ c'.due = c.due + 1 := by
  refine ⟨⟨fun t => if t ≤ p.toNat then t else t + p, none⟩, [⟨0, 0, 0, 1, 0⟩, ⟨0, 0, 0, 1, 0⟩], by simp, ?_⟩
  have h0 : sleepTime p 0 0 = p := by
    unfold sleepTime; rw [toInt32_small (by omega) (by omega)]; omega
  have h1 : sleepTime p p.toNat ((p.toNat : Int) + 1 + p) = -1 := by
    unfold sleepTime; rw [toInt32_small (by omega) (by omega)]; omega
  refine ⟨⟨p.toNat, p.toNat, p.toNat⟩, ⟨p.toNat + 1, p.toNat + 1, p.toNat + 1⟩, ?_, rfl⟩
  simp [run, round, St.init, Env.running, h0]
  simpa using congrArg Int.toNat h1

/-- **C74 fails after a very long call** (the time to sleep is narrowed to 32 bits): after a call that takes between `2^31` and `2^32` microseconds more than
the period (about 36 to 71 minutes), with a clock nobody sets, the thread sleeps on instead of calling the task at once. -/
theorem C74_violation_long_task {e : Env} (hs : Steady e) {p : Int} (hp : IsInt p) (t0 : Nat) (rs : List Round) {n : Nat} {c c' : Call} {r r' : Round}
    (hc : (run e p (St.init t0) rs).calls[n]? = some c) (hc' : (run e p (St.init t0) rs).calls[n + 1]? = some c') (hr : rs[n]? = some r)
    (hr' : rs[n + 1]? = some r') (hd : p + 2 ^ 31 < (r.busy : Int)) (hd' : (r.busy : Int) < p + 2 ^ 32) :
    (c'.due : Int) = c.due + (p + 2 ^ 32) + r.test + r'.over := by
  obtain ⟨h1, _⟩ := (inv_run e p t0 rs).gap n c c' r r' hc hc' hr hr'
  obtain ⟨k, hk⟩ := hs
  have : sleepTime p (e.clk c.due) (e.clk (c.due + r.busy)) = p - r.busy + 2 ^ 32 := by
    unfold sleepTime
    rw [hk, hk, toInt32_eq]
    have e1 : p - (((c.due + r.busy : Nat) : Int) + k - (c.due + k)) = (p - r.busy + 2 ^ 32) - ((2 ^ 32 : Nat) : Int) := by push_cast; omega
    have e2 : (p - r.busy + 2 ^ 32) - ((2 ^ 32 : Nat) : Int) = (p - r.busy + 2 ^ 32) + ((2 ^ 32 : Nat) : Int) * (-1) := by omega
    rw [e1, e2, Int.add_mul_bmod_self_left]
    have := hp.1
    have := hp.2
    apply Int.bmod_eq_of_le <;> omega
  rw [this] at h1
  rw [h1]; push_cast; omega

/-! ### Concrete cases -/

def exEnv (stop : Option Nat) : Env := ⟨fun t => t + 1000000, stop⟩

theorem exEnv_steady (o : Option Nat) : Steady (exEnv o) := ⟨1000000, fun _ => rfl⟩

/-- Period 10; the second call takes 25 and the third follows at once; 3 microseconds of oversleeping before the fourth shift all later calls. -/
theorem C74_example :
    (run (exEnv none) 10 (St.init 100) [⟨0, 0, 4, 0, 0⟩, ⟨0, 0, 25, 0, 0⟩, ⟨0, 0, 4, 0, 0⟩, ⟨3, 0, 4, 0, 0⟩, ⟨0, 0, 4, 0, 0⟩]).calls.map (·.beg) =
      [110, 120, 145, 158, 168] := by decide +kernel

/-- `stop` at 115 comes while the thread sleeps: one more call at 120, then the end. -/
theorem C74_example_stop :
    (fun s => (s.calls.map (·.beg), s.ended, s.now)) (run (exEnv (some 115)) 10 (St.init 100) [⟨0, 0, 4, 0, 0⟩, ⟨0, 0, 4, 0, 0⟩, ⟨0, 0, 4, 0, 0⟩]) =
      ([110, 120], true, 124) ∧ (oneShot (exEnv (some 105)) 10 100 ⟨0, 0, 1, 0, 0⟩).map (·.beg) = [110] := by decide +kernel

/-- Period one second, a call of 40 minutes: the next call comes 31 minutes after its end. -/
theorem C74_example_long :
    (run (exEnv none) 1000000 (St.init 0) [⟨0, 0, 2400000000, 0, 0⟩, ⟨0, 0, 0, 0, 0⟩]).calls.map (fun c => (c.beg, c.fin)) =
      [(1000000, 2401000000), (4296967296, 4296967296)] := by decide +kernel

end Verif.Period
