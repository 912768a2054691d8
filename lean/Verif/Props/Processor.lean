import Verif.Lemmas.Processor

/-!
C26 (halting a batch event processor), C59 (wait strategies lose no wake-up) and the part of C25 about exceptions that are not
`std::exception`s.
-/

namespace Verif.Proc
open Verif

/-- Thread `t` can do a step. -/
def Enabled (w : Strat) (s : St) (t : Nat) : Prop := ∃ v s', step w s (.step t v) = some s'

/-- An infinite execution. -/
structure Exec (w : Strat) (ρ : Nat → St) (σ : Nat → Act) : Prop where
  start : Reach w (ρ 0)
  next : ∀ i, step w (ρ i) (σ i) = some (ρ (i + 1))

theorem Exec.reach {w : Strat} {ρ : Nat → St} {σ : Nat → Act} (h : Exec w ρ σ) : ∀ i, Reach w (ρ i)
  | 0 => h.start
  | i + 1 => .step _ (h.reach i) (h.next i)

/-- The scheduler lets thread `t` go on as long as its call has not returned. -/
def Scheduled (ρ : Nat → St) (σ : Nat → Act) (t : Nat) : Prop := ∀ i, (ρ i).pc t ≠ .idle → ∃ j, i ≤ j ∧ (σ j).thread = t

theorem own_obj {w : Strat} {s s' : St} {a : Act} {o : Nat} (hs : step w s a = some s') {t : Nat}
    (ht : a.thread = t) (ho : (s.pc t).obj = some o) : s'.pc t = .idle ∨ (s'.pc t).obj = some o := by
  cases a with
  | step u v =>
    simp only [Act.thread] at ht; subst ht
    simp only [Proc.step, stepT] at hs
    split at hs <;> (rename_i e; rw [e] at ho; simp only [Pc.obj, Option.some.injEq, reduceCtorEq] at ho) <;> (try subst ho) <;>
      (repeat' split at hs) <;> (try cases hs) <;>
        simp only [St.goto, upd_same, firstPc, lockedPc, wokenPc] <;> (repeat' split) <;>
        simp [Pc.obj]
  | _ =>
    simp only [Act.thread] at ht; subst ht
    simp only [Proc.step] at hs
    (repeat' split at hs) <;> (try cases hs) <;> (rename_i e) <;> simp_all [Pc.obj, St.goto]

theorem other_obj {w : Strat} {s s' : St} {a : Act} {o : Nat} (hs : step w s a = some s') {t : Nat}
    (ht : a.thread ≠ t) (ho : (s.pc t).obj = some o) : (s'.pc t).obj = some o := by
  rcases step_other hs ht with e | ⟨o', nx, e1, e2⟩
  · rw [e]; exact ho
  · rw [e1] at ho; rw [e2]; exact ho

theorem other_rank {w : Strat} {s s' : St} {a : Act} (hs : step w s a = some s') {t : Nat} (ht : a.thread ≠ t) :
    rank (s'.pc t) = rank (s.pc t) ∨ lt2 (rank (s'.pc t)) (rank (s.pc t)) := by
  rcases step_other hs ht with e | ⟨o', nx, e1, e2⟩
  · rw [e]; exact Or.inl rfl
  · rw [e1, e2]; right; simp [rank, lt2]

theorem lt2_trans {a b c : Nat × Nat} (h1 : lt2 a b) (h2 : lt2 b c) : lt2 a c := by
  simp only [lt2] at *; omega

/-- A thread inside `run()` of a halted processor returns. -/
theorem halted_returns {w : Strat} {ρ : Nat → St} {σ : Nat → Act} (hx : Exec w ρ σ) {o t : Nat} (hno : ∀ i u, σ i ≠ .callRun u o)
    (hsch : Scheduled ρ σ t) : ∀ i, Halted (ρ i) o → (ρ i).pc t = .idle ∨ (((ρ i).pc t).obj = some o) →
    ∃ j, i ≤ j ∧ (ρ j).pc t = .idle := by
  have key : ∀ r : Nat × Nat, ∀ i, Halted (ρ i) o → ((ρ i).pc t).obj = some o → rank ((ρ i).pc t) = r →
      ∃ j, i ≤ j ∧ (ρ j).pc t = .idle := by
    intro r
    induction r using lt2_wf.induction with
    | _ r ih =>
      intro i hh ho hr
      obtain ⟨j, hj, hjt⟩ := hsch i (by intro e; rw [e] at ho; simp [Pc.obj] at ho)
      -- walk from i to the first own step
      have walk : ∀ n, ∀ i, i + n = j → Halted (ρ i) o → ((ρ i).pc t).obj = some o →
          rank ((ρ i).pc t) = r ∨ lt2 (rank ((ρ i).pc t)) r → ∃ k, i ≤ k ∧ (ρ k).pc t = .idle := by
        intro n
        induction n with
        | zero =>
          intro i hi hh ho hr
          have hi : i = j := hi
          subst hi
          obtain ⟨h1, h2⟩ := rank_own hh (hx.reach i).inv (hx.next i) hjt ho
          rcases h1 with h1 | h1
          · exact ⟨i + 1, by omega, h1⟩
          · have hlt : lt2 (rank ((ρ (i + 1)).pc t)) r := by
              rcases hr with hr | hr
              · rw [hr] at h2; exact h2
              · exact lt2_trans h2 hr
            obtain ⟨k, hk1, hk2⟩ := ih _ hlt (i + 1) (hh.step (hx.reach i).inv (hx.next i) (hno i)) h1 rfl
            exact ⟨k, by omega, hk2⟩
        | succ n ihn =>
          intro i hi hh ho hr
          have hh' := hh.step (hx.reach i).inv (hx.next i) (hno i)
          by_cases hit : (σ i).thread = t
          · obtain ⟨h1, h2⟩ := rank_own hh (hx.reach i).inv (hx.next i) hit ho
            rcases h1 with h1 | h1
            · exact ⟨i + 1, by omega, h1⟩
            · have hlt : lt2 (rank ((ρ (i + 1)).pc t)) r := by
                rcases hr with hr | hr
                · rw [hr] at h2; exact h2
                · exact lt2_trans h2 hr
              obtain ⟨k, hk1, hk2⟩ := ih _ hlt (i + 1) hh' h1 rfl
              exact ⟨k, by omega, hk2⟩
          · have h1 := other_obj (hx.next i) hit ho
            have h2 := other_rank (hx.next i) hit
            obtain ⟨k, hk1, hk2⟩ := ihn (i + 1) (by omega) hh' h1 (by
              rcases h2 with h2 | h2
              · rw [h2]; exact hr
              · rcases hr with hr | hr
                · rw [hr] at h2; exact Or.inr h2
                · exact Or.inr (lt2_trans h2 hr))
            exact ⟨k, by omega, hk2⟩
      exact walk (j - i) i (by omega) hh ho (Or.inl hr)
  intro i hh h
  rcases h with h | h
  · exact ⟨i, Nat.le_refl _, h⟩
  · exact key _ i hh h rfl

/-- Progress of a thread inside `halt()` of `o`. -/
def HStage (s : St) (h o : Nat) : Prop :=
  s.pc h = .hRun o ∨ (s.pc h = .hAlert o ∧ s.running o = false) ∨
  ((s.pc h = .sExch (some o) ∨ s.pc h = .sLock (some o) ∨ s.pc h = .sNotify (some o)) ∧ s.running o = false ∧ s.alerted o = true)

def hrank : Pc → Nat
  | .hRun _ => 5 | .hAlert _ => 4 | .sExch _ => 3 | .sLock _ => 2 | .sNotify _ => 1 | _ => 0

theorem hstage_step {w : Strat} {s s' : St} {a : Act} {o h : Nat} (hh : HStage s h o) (hs : step w s a = some s')
    (hc : ∀ t, s.pc t ≠ .rCas o ∧ s.pc t ≠ .rClear o) (ha : ∀ t, a ≠ .callRun t o) :
    (HStage s' h o ∧ (a.thread = h → hrank (s'.pc h) < hrank (s.pc h)) ∧ hrank (s'.pc h) ≤ hrank (s.pc h)) ∨ Halted s' o := by
  have hcs := calm_step hs ha hc
  by_cases hth : a.thread = h
  · subst hth
    cases a with
    | step t v =>
      simp only [Act.thread] at *
      simp only [Proc.step, stepT] at hs
      rcases hh with e | ⟨e, h1⟩ | ⟨e | e | e, h1, h2⟩ <;> simp only [e] at hs
      · cases hs; left; simp [HStage, St.goto, hrank, e]
      · cases hs; left; simp [HStage, St.goto, hrank, e, h1]
      · split at hs
        · cases hs; right; refine ⟨?_, ?_, hcs⟩ <;> simp [St.tell, St.goto, h1, h2]
        · split at hs
          · cases hs; left; simp [HStage, St.goto, hrank, e, h1, h2]
          · cases hs; right; refine ⟨?_, ?_, hcs⟩ <;> simp [St.tell, St.goto, h1, h2]
        · cases hs; left; simp [HStage, St.goto, hrank, e, h1, h2]
      · split at hs <;> cases hs
        left; simp [HStage, St.goto, hrank, e, h1, h2]
      · cases hs; right; refine ⟨?_, ?_, hcs⟩ <;> simp [St.tell, St.goto, h1, h2]
    | _ =>
      simp only [Act.thread] at *
      simp only [Proc.step] at hs
      rcases hh with e | ⟨e, h1⟩ | ⟨e | e | e, h1, h2⟩ <;> simp [e] at hs
  · have hpc : s'.pc h = s.pc h := by
      rcases step_other hs hth with e | ⟨o', nx, e1, -⟩
      · exact e
      · rcases hh with e | ⟨e, h1⟩ | ⟨e | e | e, h1, h2⟩ <;> rw [e] at e1 <;> cases e1
    have hrun : s.running o = false → s'.running o = false := by
      intro h1
      cases a with
      | step t v =>
        simp only [Proc.step, stepT] at hs
        have := hc t
        split at hs <;> (repeat' split at hs) <;> (try cases hs) <;> (try simp only [St.goto, upd_apply]) <;> (try exact h1)
        · grind
        · grind
        · grind
        all_goals (simp only [St.tell]; split <;> exact h1)
      | haltNoop t o' =>
        simp only [Proc.step] at hs
        split at hs <;> cases hs
        simp only [upd_apply]; split
        · rfl
        · exact h1
      | _ =>
        simp only [Proc.step] at hs
        (repeat' split at hs) <;> (try cases hs) <;> exact h1
    have hal : s.alerted o = true → s'.alerted o = true := by
      intro h1
      cases a with
      | step t v =>
        simp only [Proc.step, stepT] at hs
        have := hc t
        split at hs <;> (repeat' split at hs) <;> (try cases hs) <;> (try simp only [St.goto, upd_apply]) <;> (try exact h1)
        · grind
        · grind
        all_goals (simp only [St.tell]; split <;> exact h1)
      | _ =>
        simp only [Proc.step] at hs
        (repeat' split at hs) <;> (try cases hs) <;> exact h1
    left
    rw [hpc]
    refine ⟨?_, fun e => absurd e hth, Nat.le_refl _⟩
    simp only [HStage, hpc]
    rcases hh with e | ⟨e, h1⟩ | ⟨e, h1, h2⟩
    · exact Or.inl e
    · exact Or.inr (Or.inl ⟨e, hrun h1⟩)
    · exact Or.inr (Or.inr ⟨e, hrun h1, hal h2⟩)

/-- `halt()` returns, and leaves the object halted. -/
theorem halt_completes {w : Strat} {ρ : Nat → St} {σ : Nat → Act} (hx : Exec w ρ σ) {o h : Nat} (hno : ∀ i u, σ i ≠ .callRun u o)
    (hsch : Scheduled ρ σ h) (hc : ∀ t, (ρ 0).pc t ≠ .rCas o ∧ (ρ 0).pc t ≠ .rClear o) :
    ∀ n i, hrank ((ρ i).pc h) ≤ n → HStage (ρ i) h o → ∃ j, i ≤ j ∧ Halted (ρ j) o := by
  have hcalm : ∀ i, ∀ t, (ρ i).pc t ≠ .rCas o ∧ (ρ i).pc t ≠ .rClear o := by
    intro i
    induction i with
    | zero => exact hc
    | succ i ih => exact calm_step (hx.next i) (hno i) ih
  intro n
  induction n with
  | zero =>
    intro i hn hh
    rcases hh with e | ⟨e, h1⟩ | ⟨e | e | e, h1, h2⟩ <;> rw [e] at hn <;> simp [hrank] at hn
  | succ n ih =>
    intro i hn hh
    obtain ⟨j, hj, hjt⟩ := hsch i (by
      intro e2
      rcases hh with e | ⟨e, h1⟩ | ⟨e | e | e, h1, h2⟩ <;> rw [e] at e2 <;> cases e2)
    have walk : ∀ m, ∀ i, i + m = j → hrank ((ρ i).pc h) ≤ n + 1 → HStage (ρ i) h o → ∃ j, i ≤ j ∧ Halted (ρ j) o := by
      intro m
      induction m with
      | zero =>
        intro i hi hn hh
        have hi : i = j := hi
        subst hi
        rcases hstage_step hh (hx.next i) (hcalm i) (hno i) with ⟨h1, h2, -⟩ | h1
        · have := h2 hjt
          obtain ⟨k, hk1, hk2⟩ := ih (i + 1) (by omega) h1
          exact ⟨k, by omega, hk2⟩
        · exact ⟨i + 1, by omega, h1⟩
      | succ m ihm =>
        intro i hi hn hh
        rcases hstage_step hh (hx.next i) (hcalm i) (hno i) with ⟨h1, -, h2⟩ | h1
        · obtain ⟨k, hk1, hk2⟩ := ihm (i + 1) (by omega) (by omega) h1
          exact ⟨k, by omega, hk2⟩
        · exact ⟨i + 1, by omega, h1⟩
    exact walk (j - i) i (by omega) hn hh

/-- **C26** (liveness).  Thread `h` has called `halt()` of processor `o`; thread `t` is inside `run()` of `o`; no thread is at the
very beginning of `run()` of `o` (the compare-and-swap or `clear_alert`) and nobody calls `run()` of `o` again.  Then, for every wait
strategy modelled, whatever all threads do, `run()` returns in every execution that lets `h` and `t` go on.
Missing: a halt before clear_alert, and repeated runs (C26_lost_halt, C26_livelock). -/
theorem C26_halt_stops_partial {w : Strat} {ρ : Nat → St} {σ : Nat → Act} (hx : Exec w ρ σ) {o h t : Nat}
    (hh : (ρ 0).pc h = .hRun o) (ht : ((ρ 0).pc t).obj = some o)
    (hc : ∀ u, (ρ 0).pc u ≠ .rCas o ∧ (ρ 0).pc u ≠ .rClear o) (hno : ∀ i u, σ i ≠ .callRun u o)
    (hsh : Scheduled ρ σ h) (hst : Scheduled ρ σ t) : ∃ j, (ρ j).pc t = .idle := by
  obtain ⟨j, -, hj⟩ := halt_completes hx hno hsh hc _ 0 (Nat.le_refl _) (Or.inl hh)
  by_cases hid : ∃ i, (ρ i).pc t = .idle
  · exact hid
  have hobj : ∀ i, ((ρ i).pc t).obj = some o := by
    intro i
    induction i with
    | zero => exact ht
    | succ i ih =>
      by_cases hit : (σ i).thread = t
      · rcases own_obj (hx.next i) hit ih with e | e
        · exact absurd ⟨_, e⟩ hid
        · exact e
      · exact other_obj (hx.next i) hit ih
  obtain ⟨k, -, hk⟩ := halted_returns hx hno hst j hj (Or.inr (hobj j))
  exact ⟨k, hk⟩

/-- The mutex holder can always go on. -/
theorem holder_enabled {w : Strat} {s : St} (h : Inv w s) {u : Nat} (hu : s.owner = some u) : Enabled w s u := by
  have h1 := (h.own u).mp hu
  simp only [Enabled, Proc.step, stepT]
  cases hp : s.pc u <;> rw [hp] at h1 <;> simp [Pc.holds] at h1 <;> refine ⟨0, ?_⟩ <;>
    first
      | exact ⟨_, rfl⟩
      | (simp only []; split <;> exact ⟨_, rfl⟩)

/-- **C26/C59** (no deadlock).  In every reachable state a thread inside a call can do its next step, or waits for the condition
variable, or waits for a mutex whose holder can do its next step. -/
theorem C59_no_deadlock {w : Strat} {s : St} (h : Reach w s) {t : Nat} (ht : s.pc t ≠ .idle) :
    Enabled w s t ∨ (∃ o nx, s.pc t = .rAsleep o nx) ∨ ∃ u, u ≠ t ∧ s.owner = some u ∧ Enabled w s u := by
  have hi := h.inv
  cases ho : s.owner with
  | none =>
    by_cases hz : ∃ o nx, s.pc t = .rAsleep o nx
    · exact Or.inr (Or.inl hz)
    left
    simp only [Enabled, Proc.step, stepT]
    cases hp : s.pc t <;> simp [hp] at ht hz <;> refine ⟨0, ?_⟩ <;>
    first
      | exact ⟨_, rfl⟩
      | (simp only [ho]; split <;> exact ⟨_, rfl⟩)
      | (simp only [ho, if_true]; exact ⟨_, rfl⟩)
      | (simp only []; split <;> (repeat' split) <;> exact ⟨_, rfl⟩)
  | some u =>
    by_cases hut : u = t
    · subst hut; exact Or.inl (holder_enabled hi ho)
    · exact Or.inr (Or.inr ⟨u, hut, rfl, holder_enabled hi ho⟩)

/-- **C59**: a processor that waits without the condition variable (the first phase of a phased strategy, or the wait for the processors it follows)
and sees that the sequence it waits for is there goes on to handle that event with its next step. -/
theorem C59_available_is_handled {w : Strat} {s : St} {t o : Nat} {nx v v' : Int} (hw : s.pc t = .rDep o nx ∨ ∃ n, s.pc t = .rPhase o nx n)
    (hv : nx ≤ v) : ∃ s1 s2, step w s (.step t v) = some s1 ∧ step w s1 (.step t v') = some s2 ∧ s2.log o = nx :: s.log o := by
  have hn : ¬ v < nx := by omega
  rcases hw with h | ⟨n, h⟩
  · exact ⟨_, _, by simp [Proc.step, stepT, h, hn]; rfl, by simp [Proc.step, stepT, St.goto, upd_same, hv]; rfl, by simp [upd_same]⟩
  · exact ⟨_, _, by simp [Proc.step, stepT, h, hn]; rfl, by simp [Proc.step, stepT, St.goto, upd_same, hv]; rfl, by simp [upd_same]⟩

/-- **C59** (no lost wake-up).  If a processor waits on the condition variable although the sequence it waits for has been reached by
the cursor, or although it has been alerted, then some thread is inside `signal_all_when_blocking` and certain to notify: it has
still to lock the mutex and notify, or has still to look at the signal flag, which is then set. -/
theorem C59_no_lost_wakeup {w : Strat} {s : St} (h : Reach w s) {t o : Nat} {nx : Int} (ht : s.pc t = .rAsleep o nx)
    (hr : nx ≤ s.cursor ∨ s.alerted o = true) :
    ∃ u src, s.pc u = .sLock src ∨ s.pc u = .sNotify src ∨ (s.pc u = .sExch src ∧ (w.base = .lite → s.signal = true)) := by
  have h1 := h.inv.thr t
  rw [ht] at h1
  obtain ⟨-, hl, hc, ha, -⟩ := h1
  have late : Late s → ∃ u src, s.pc u = .sLock src ∨ s.pc u = .sNotify src ∨ (s.pc u = .sExch src ∧ (w.base = .lite → s.signal = true)) := by
    rintro ⟨u, hu⟩
    refine ⟨u, ?_⟩
    cases hp : s.pc u <;> rw [hp] at hu <;> simp [Pc.late] at hu <;> simp
  have pend : Pend s := by exact hr.elim hc ha
  obtain ⟨u, hu⟩ := pend
  cases hp : s.pc u <;> rw [hp] at hu <;> simp [Pc.pend] at hu
  · rename_i src
    by_cases hw : w.base = .lite
    · rcases hl hw with h2 | h2
      · exact ⟨u, src, Or.inr (Or.inr ⟨hp, fun _ => h2⟩)⟩
      · exact late h2
    · exact ⟨u, src, Or.inr (Or.inr ⟨hp, fun e => absurd e hw⟩)⟩
  · exact ⟨u, _, Or.inl hp⟩
  · exact ⟨u, _, Or.inr (Or.inl hp)⟩

/-- **C59** (timed waiting).  A processor that sleeps wakes up by itself if and only if its wait strategy waits with a timeout; it then looks at the cursor
again or reports the timeout as soon as the mutex is free. -/
theorem C59_timed_wait_ends {w : Strat} {s : St} {t o : Nat} {nx : Int} (ht : s.pc t = .rAsleep o nx) :
    ((step w s (.timeout t)).isSome ↔ w.base = .timed) ∧
    (w.base = .timed → s.owner = none → ∀ v, ∃ s', run w s [.timeout t, .step t v] = some s' ∧ s'.pc t = .rTOut o nx ∧ s'.owner = some t) := by
  refine ⟨?_, fun hw ho v => ?_⟩
  · simp only [step, ht]
    split <;> simp [*]
  · simp [run, step, stepT, ht, hw, ho, St.goto, upd_same]

/-- **C59** (as seen by the user).  When no publication and no `halt` is in progress, a processor that waits on the condition variable
has nothing to do: the next sequence is not reached by the cursor and the processor is not alerted. -/
theorem C59_quiescent {w : Strat} {s : St} (h : Reach w s)
    (hq : ∀ u src, s.pc u ≠ .sExch src ∧ s.pc u ≠ .sLock src ∧ s.pc u ≠ .sNotify src) {t o : Nat} {nx : Int}
    (ht : s.pc t = .rAsleep o nx) : s.cursor < nx ∧ s.alerted o = false := by
  have key : ¬ (nx ≤ s.cursor ∨ s.alerted o = true) := by
    intro hr
    obtain ⟨u, src, h1 | h1 | h1⟩ := C59_no_lost_wakeup h ht hr
    · exact (hq u src).2.1 h1
    · exact (hq u src).2.2 h1
    · exact (hq u src).1 h1.1
  refine ⟨by omega, ?_⟩
  cases hs : s.alerted o
  · rfl
  · exact absurd (Or.inr hs) key

/-- Inside the loop of `run()`, not on the way out. -/
def Pc.looping (o : Nat) (p : Pc) : Prop :=
  p.obj = some o ∧ p ≠ .rCas o ∧ p ≠ .rDown o ∧ (∀ nx, p ≠ .rCaught o nx) ∧ ∀ nx, p ≠ .rUnwind o nx

/-- Nobody is inside the two stores of `halt()` of `o`, and nobody calls it. -/
theorem noHalt_step {w : Strat} {s s1 : St} {a : Act} {o : Nat} (hq : ∀ u, s.pc u ≠ .hRun o ∧ s.pc u ≠ .hAlert o)
    (ha : ∀ u, a ≠ .callHalt u o) (h1 : step w s a = some s1) : ∀ u, s1.pc u ≠ .hRun o ∧ s1.pc u ≠ .hAlert o := by
  intro u
  by_cases hu : a.thread = u
  · have hqu := hq u
    cases a with
    | step u' v =>
      simp only [Act.thread] at hu; subst hu
      simp only [Proc.step, stepT] at h1
      split at h1 <;> (repeat' split at h1) <;> (try cases h1) <;>
        simp only [St.goto, tell_pc, upd_same, firstPc, lockedPc, wokenPc] <;> (repeat' split) <;> simp_all
    | callHalt u' o' =>
      simp only [Act.thread] at hu; subst hu
      simp only [Proc.step] at h1
      split at h1 <;> cases h1
      simp only [St.goto, upd_same]
      refine ⟨?_, by simp⟩
      intro e; injection e with e; subst e; exact ha _ rfl
    | haltNoop u' o' =>
      simp only [Proc.step] at h1
      split at h1 <;> cases h1
      exact hqu
    | _ =>
      simp only [Act.thread] at hu; subst hu
      simp only [Proc.step] at h1
      (repeat' split at h1) <;> (try cases h1) <;> simp [St.goto]
  · rcases step_other h1 hu with e | ⟨o', nx, -, e⟩
    · rw [e]; exact hq u
    · rw [e]; simp

theorem looping_own {w : Strat} {s s1 : St} {a : Act} {o t : Nat} (hal : s.alerted o = false) (ht : (s.pc t).looping o)
    (ha : a ≠ .throwOther t) (hu : a.thread = t) (h1 : step w s a = some s1) : (s1.pc t).looping o := by
  obtain ⟨g1, g2, g3, g4, g5⟩ := ht
  cases a with
  | step u v =>
    simp only [Act.thread] at hu; subst hu
    simp only [Proc.step, stepT] at h1
    split at h1 <;> (rename_i e; rw [e] at g1 g2 g3 g4 g5; simp only [Pc.obj, Option.some.injEq, reduceCtorEq] at g1) <;> (try subst g1) <;>
      (repeat' split at h1) <;> (try cases h1) <;>
      simp only [St.goto, upd_same, firstPc, lockedPc, wokenPc] <;> (repeat' split) <;>
      simp only [Pc.looping, Pc.obj, hal, ne_eq, reduceCtorEq, not_false_eq_true, not_true_eq_false, implies_true, and_self, true_and,
        Bool.false_eq_true] at * <;> grind
  | throwOther u => simp only [Act.thread] at hu; subst hu; exact absurd rfl ha
  | _ =>
    simp only [Act.thread] at hu; subst hu
    simp only [Proc.step] at h1
    (repeat' split at h1) <;> (try cases h1) <;> (rename_i e) <;> simp_all [Pc.obj, St.goto, Pc.looping]

theorem unalerted_step {w : Strat} {s s1 : St} {a : Act} {o : Nat} (hq : ∀ u, s.pc u ≠ .hRun o ∧ s.pc u ≠ .hAlert o)
    (hal : s.alerted o = false) (h1 : step w s a = some s1) : s1.alerted o = false := by
  cases a with
  | step u v =>
    simp only [Proc.step, stepT] at h1
    have := hq u
    split at h1 <;> (repeat' split at h1) <;> (try cases h1) <;> (try simp only [St.goto, upd_apply]) <;> (try exact hal)
    · grind
    · grind
    all_goals (simp only [St.tell]; split <;> exact hal)
  | _ =>
    simp only [Proc.step] at h1
    (repeat' split at h1) <;> (try cases h1) <;> exact hal

/-- **C26** is violated when `halt()` comes after `running_` became true but before `clear_alert`: the processor then loops for
ever, whatever all threads do, unless `halt()` is called once more or the handler throws a foreign exception. -/
theorem C26_lost_halt_for_ever {w : Strat} {s : St} {o t : Nat} (hal : s.alerted o = false)
    (hq : ∀ u, s.pc u ≠ .hRun o ∧ s.pc u ≠ .hAlert o) (ht : (s.pc t).looping o) (as : List Act)
    (ha : ∀ a ∈ as, a ≠ .throwOther t ∧ ∀ u, a ≠ .callHalt u o) {s' : St} (hs : run w s as = some s') :
    (s'.pc t).looping o ∧ s'.alerted o = false := by
  induction as generalizing s with
  | nil => cases hs; exact ⟨ht, hal⟩
  | cons a as ih =>
    simp only [run] at hs
    split at hs
    · cases hs
    · next s1 h1 =>
      have ha1 := ha a (by simp)
      have ht1 : (s1.pc t).looping o := by
        by_cases hu : a.thread = t
        · exact looping_own hal ht ha1.1 hu h1
        · rcases step_other h1 hu with e | ⟨o', nx, e1, e2⟩
          · rw [e]; exact ht
          · rw [e1] at ht; rw [e2]
            obtain ⟨g1, -⟩ := ht
            simp only [Pc.obj, Option.some.injEq] at g1
            subst g1
            simp [Pc.looping, Pc.obj]
      exact ih (unalerted_step hq hal h1) (noHalt_step hq ha1.2 h1) ht1 (fun b hb => ha b (by simp [hb])) hs

/-- The situation is reached: thread 0 calls `run()` and sets `running_`; thread 1 sees `is_running()` and calls `halt()`, which
returns; thread 0 clears the alert and waits. -/
theorem C26_lost_halt :
    (run .blocking .init
      ([.callRun 0 0, .step 0 0, .callHalt 1 0] ++ List.replicate 6 (.step 1 0) ++ List.replicate 8 (.step 0 0))).map
      (fun s => (s.pc 0, s.pc 1, s.running 0, s.alerted 0)) = some (.rAsleep 0 0, .idle, false, false) := by decide +kernel

/-- **C26** is violated by the no-op processor: its `halt()` does not alert the barrier, so it never ends `run()`, however often it is
called and whatever is published; only an alert given to the barrier from outside does. -/
theorem C26_violation_noop_halt {w : Strat} {s : St} {o t : Nat} (hal : s.alerted o = false)
    (hq : ∀ u, s.pc u ≠ .hRun o ∧ s.pc u ≠ .hAlert o) (ht : (s.pc t).looping o) (as : List Act)
    (ha : ∀ a ∈ as, (∃ u, a = .haltNoop u o) ∨ (∃ u v, a = .step u v) ∨ ∃ u x, a = .callPublish u x) {s' : St}
    (hs : run w s as = some s') : (s'.pc t).looping o :=
  (C26_lost_halt_for_ever hal hq ht as
    (fun a h => by rcases ha a h with ⟨u, rfl⟩ | ⟨u, v, rfl⟩ | ⟨u, x, rfl⟩ <;> exact ⟨nofun, nofun⟩) hs).1

/-- The situation is reached; after `halt()` the processor says it is not running, so a second thread gets past the check in `run()`
and two threads run the processor. -/
theorem C26_example_noop_halt :
    (run .blocking .init
      ([.callRun 0 0] ++ List.replicate 9 (.step 0 0) ++ [.haltNoop 1 0, .haltNoop 1 0, .callPublish 1 0] ++ List.replicate 5 (.step 1 0) ++
        List.replicate 6 (.step 0 0) ++ [.callRun 2 0] ++ List.replicate 5 (.step 2 0))).map
      (fun s => ((s.pc 0).obj, (s.pc 2).obj, s.alerted 0, s.log 0)) =
    some (some 0, some 0, false, [0]) := by decide +kernel

/-- A phased strategy: halted in its first phase, the processor goes through the rest of the phase, then the strategy it falls back to
sees the alert and `run()` returns. -/
theorem C26_example_phased :
    (run (.phased .blocking) .init
      ([.callRun 0 0, .step 0 0, .step 0 0, .step 0 0, .step 0 3, .callHalt 1 0] ++ List.replicate 6 (.step 1 0) ++ [.step 0 (-1), .step 0 (-1)])).map
      (fun s => (s.pc 0, s.told 0)) = some (.rPhase 0 0 1, true) ∧
    (run (.phased .blocking) .init
      ([.callRun 0 0, .step 0 0, .step 0 0, .step 0 0, .step 0 3, .callHalt 1 0] ++ List.replicate 6 (.step 1 0) ++
        List.replicate 11 (.step 0 (-1)))).map
      (fun s => (s.pc 0, s.running 0)) = some (.idle, false) := by
  constructor <;> decide +kernel

/-- The lite strategy: a sleeping processor that wakes without reason goes back to sleep; woken by a publication it handles the event. -/
theorem C59_example_lite :
    (run .lite .init ([.callRun 0 0] ++ List.replicate 10 (.step 0 0))).map (fun s => s.pc 0) = some (.rAsleep 0 0) ∧
    (run .lite .init ([.callRun 0 0] ++ List.replicate 10 (.step 0 0) ++ [.spurious 0] ++ List.replicate 2 (.step 0 0))).map
      (fun s => (s.pc 0, s.signal)) = some (.rSig 0 0, true) ∧
    (run .lite .init ([.callRun 0 0] ++ List.replicate 10 (.step 0 0) ++ [.callPublish 1 0] ++ List.replicate 5 (.step 1 0) ++
      List.replicate 6 (.step 0 0))).map (fun s => s.log 0) = some [0] := by
  refine ⟨?_, ?_, ?_⟩ <;> decide +kernel

/-- `halt()` called before `run()` has no effect at all. -/
theorem C26_halt_before_run :
    (run .blocking .init
      ([.callHalt 1 0] ++ List.replicate 6 (.step 1 0) ++ [.callRun 0 0] ++ List.replicate 9 (.step 0 0))).map
      (fun s => (s.pc 0, s.pc 1, s.running 0, s.alerted 0)) = some (.rAsleep 0 0, .idle, true, false) := by decide +kernel

theorem upd_obj_step {w : Strat} {s s1 : St} {a : Act} {o u : Nat} (hq : (s.pc u).obj ≠ some o)
    (ha : a ≠ .callRun u o) (h1 : step w s a = some s1) : (s1.pc u).obj ≠ some o := by
  by_cases hu : a.thread = u
  · cases a with
    | step u' v =>
      simp only [Act.thread] at hu; subst hu
      simp only [Proc.step, stepT] at h1
      split at h1 <;> (rename_i e; rw [e] at hq) <;> (repeat' split at h1) <;> (try cases h1) <;>
        simp only [St.goto, tell_pc, upd_same, firstPc, lockedPc, wokenPc] <;> (repeat' split) <;> simp only [Pc.obj] at hq ⊢ <;>
        first | exact hq | simp
    | callRun u' o' =>
      simp only [Act.thread] at hu; subst hu
      simp only [Proc.step] at h1
      split at h1 <;> cases h1
      simp only [St.goto, upd_same, Pc.obj]
      intro e; injection e with e; subst e; exact ha rfl
    | _ =>
      simp only [Act.thread] at hu; subst hu
      simp only [Proc.step] at h1
      (repeat' split at h1) <;> (try cases h1) <;> (rename_i e) <;> simp_all [St.goto, Pc.obj]
  · rcases step_other h1 hu with e | ⟨o', nx, e1, e2⟩
    · rw [e]; exact hq
    · rw [e1] at hq; rw [e2]; exact hq

theorem spin_step {w : Strat} {s s1 : St} {a : Act} {o t : Nat} (hal : s.alerted o = true) (hrn : s.running o = true)
    (hq : ∀ u, s.pc u ≠ .hRun o ∧ s.pc u ≠ .hAlert o) (hone : ∀ u, u ≠ t → (s.pc u).obj ≠ some o)
    (ht : ∃ nx, s.pc t = .rTop o nx ∨ s.pc t = .rCaught o nx) (hnn : ∀ u, a ≠ .haltNoop u o) (h1 : step w s a = some s1) :
    s1.alerted o = true ∧ s1.running o = true ∧ s1.log o = s.log o ∧ ∃ nx, s1.pc t = .rTop o nx ∨ s1.pc t = .rCaught o nx := by
  have hpc : a.thread ≠ t → ∃ nx, s1.pc t = .rTop o nx ∨ s1.pc t = .rCaught o nx := by
    intro hu
    rcases step_other h1 hu with e | ⟨o', nx, e1, e2⟩
    · rw [e]; exact ht
    · obtain ⟨nx, h | h⟩ := ht <;> rw [e1] at h <;> cases h
  by_cases hu : a.thread = t
  · obtain ⟨nx, e | e⟩ := ht <;> cases a <;> simp only [Act.thread] at hu <;> subst hu <;>
      simp only [Proc.step, stepT, e, hal, hrn, if_true, reduceCtorEq] at h1 <;> cases h1
    · exact ⟨hal, hrn, rfl, nx, Or.inr (by simp [St.goto])⟩
    · exact ⟨hal, hrn, rfl, nx, Or.inl (by simp [St.goto])⟩
  · have hp := hpc hu
    suffices s1.alerted o = true ∧ s1.running o = true ∧ s1.log o = s.log o from ⟨this.1, this.2.1, this.2.2, hp⟩
    cases a with
    | step u v =>
      have h2 := hq u
      have h3 := hone u hu
      simp only [Proc.step, stepT] at h1
      split at h1 <;> (rename_i e; rw [e] at h2 h3; simp only [Pc.obj, ne_eq, Option.some.injEq, Pc.hRun.injEq, Pc.hAlert.injEq] at h2 h3) <;>
        (repeat' split at h1) <;> (try cases h1) <;> (try simp only [St.goto, upd_apply]) <;> (try exact ⟨hal, hrn, rfl⟩)
      all_goals first
        | (simp only [St.tell]; split <;> exact ⟨hal, hrn, rfl⟩)
        | grind
    | throwStd u =>
      simp only [Proc.step] at h1
      (repeat' split at h1) <;> (try cases h1) <;> exact ⟨hal, hrn, rfl⟩
    | haltNoop u o' =>
      simp only [Proc.step] at h1
      split at h1 <;> cases h1
      have : o ≠ o' := fun e => hnn u (by rw [e])
      exact ⟨hal, by simp only [upd_other _ _ this]; exact hrn, rfl⟩
    | _ =>
      simp only [Proc.step] at h1
      (repeat' split at h1) <;> (try cases h1) <;> exact ⟨hal, hrn, rfl⟩

/-- **C26** is violated when `run()` starts between the two stores of `halt()`: the processor is alerted and running, so it spins in
its loop for ever without handling any event, whatever all threads do, until `run()` or `halt()` is called once more. -/
theorem C26_livelock_for_ever {w : Strat} {s : St} {o t : Nat} (hal : s.alerted o = true) (hrn : s.running o = true)
    (hq : ∀ u, s.pc u ≠ .hRun o ∧ s.pc u ≠ .hAlert o) (hone : ∀ u, u ≠ t → (s.pc u).obj ≠ some o)
    (ht : ∃ nx, s.pc t = .rTop o nx ∨ s.pc t = .rCaught o nx) (as : List Act)
    (ha : ∀ a ∈ as, ∀ u, a ≠ .callHalt u o ∧ a ≠ .callRun u o ∧ a ≠ .haltNoop u o) {s' : St} (hs : run w s as = some s') :
    (∃ nx, s'.pc t = .rTop o nx ∨ s'.pc t = .rCaught o nx) ∧ s'.log o = s.log o := by
  induction as generalizing s with
  | nil => cases hs; exact ⟨ht, rfl⟩
  | cons a as ih =>
    simp only [run] at hs
    split at hs
    · cases hs
    · next s1 h1 =>
      have ha1 := ha a (by simp)
      obtain ⟨g1, g2, g3, g4⟩ := spin_step hal hrn hq hone ht (fun u => (ha1 u).2.2) h1
      rw [← g3]
      exact ih g1 g2 (noHalt_step hq (fun u => (ha1 u).1) h1) (fun u hu => upd_obj_step (hone u hu) (ha1 u).2.1 h1) g4
        (fun b hb => ha b (by simp [hb])) hs

/-- The situation is reached, with an event waiting: thread 2 publishes event 0; thread 1 calls `halt()` and does its first store;
thread 0 calls `run()` up to `clear_alert`; `halt()` goes on and returns; thread 0 goes on.  Nothing is handled. -/
theorem C26_livelock :
    (run .blocking .init
      ([.callPublish 2 0] ++ List.replicate 5 (.step 2 0) ++ [.callHalt 1 0, .step 1 0, .callRun 0 0, .step 0 0, .step 0 0] ++
        List.replicate 5 (.step 1 0) ++ List.replicate 20 (.step 0 0))).map
      (fun s => ((s.pc 0, s.pc 1, s.running 0), s.alerted 0, s.cursor, s.log 0)) =
    some ((.rCaught 0 0, .idle, true), true, 0, []) := by decide +kernel

/-- **C26/C25**: after `halt()`, before the loop has ended, another thread may call `run()`; then two threads run the loop of one
processor and every event is handled twice. -/
theorem C26_two_runners :
    (run .blocking .init
      ([.callRun 0 0] ++ List.replicate 9 (.step 0 0) ++ [.callHalt 1 0, .step 1 0, .step 1 0, .callRun 2 0] ++
        List.replicate 9 (.step 2 0) ++ List.replicate 4 (.step 1 0) ++ [.callPublish 3 0] ++ List.replicate 5 (.step 3 0) ++
        List.replicate 5 (.step 0 0) ++ List.replicate 5 (.step 2 0))).map
      (fun s => ((s.pc 0).obj, (s.pc 2).obj, s.log 0)) =
    some (some 0, some 0, [0, 0]) := by decide +kernel

/-- **C25** is violated by exceptions that are not `std::exception`s: `run()` leaves without recording the events of the batch it has
handled; the next `run()` handles them again. -/
theorem C25_foreign_exception_repeats :
    (run .spin .init
      ([.callPublish 3 1, .step 3 0, .step 3 0, .callRun 0 0] ++ List.replicate 7 (.step 0 1) ++ [.step 0 1, .throwOther 0, .step 0 0,
        .callRun 0 0] ++ List.replicate 6 (.step 0 1))).map
      (fun s => (s.log 0, s.seq 0)) =
    some ([0, 1, 0], -1) := by decide +kernel

/-- A processor that is not running and that no thread is about to run stays so until `run()` is called. -/
theorem dead_step {w : Strat} {s s1 : St} {a : Act} {o : Nat} (hrn : s.running o = false) (hone : ∀ u, (s.pc u).obj ≠ some o)
    (ha : ∀ u, a ≠ .callRun u o) (h1 : step w s a = some s1) : s1.running o = false ∧ ∀ u, (s1.pc u).obj ≠ some o := by
  refine ⟨?_, fun u => upd_obj_step (hone u) (ha u) h1⟩
  cases a with
  | step u v =>
    have h3 := hone u
    simp only [Proc.step, stepT] at h1
    split at h1 <;> (rename_i e; rw [e] at h3; simp only [Pc.obj, ne_eq, Option.some.injEq] at h3) <;>
      (repeat' split at h1) <;> (try cases h1) <;> (try simp only [St.goto, upd_apply]) <;> (try exact hrn)
    all_goals first
      | (simp only [St.tell]; split <;> exact hrn)
      | grind
  | haltNoop u o' =>
    simp only [Proc.step] at h1
    split at h1 <;> cases h1
    simp only [upd_apply]; split
    · rfl
    · exact hrn
  | _ =>
    simp only [Proc.step] at h1
    (repeat' split at h1) <;> (try cases h1) <;> exact hrn

/-- **C65**, finding: the destructor of a data multiplexer subscriber first waits until its processor runs (data_multiplexer_subscriber.h
117-119).  If the processor has left `run()` because a listener threw something that is not a `std::exception`, the flag the
destructor waits for stays false whatever happens, as nobody calls `run()` again. -/
theorem C65_violation_destructor_waits {w : Strat} {s : St} {o : Nat} (hrn : s.running o = false) (hone : ∀ u, (s.pc u).obj ≠ some o)
    (as : List Act) (ha : ∀ a ∈ as, ∀ u, a ≠ .callRun u o) {s' : St} (hs : run w s as = some s') : s'.running o = false := by
  induction as generalizing s with
  | nil => cases hs; exact hrn
  | cons a as ih =>
    simp only [run] at hs
    split at hs
    · cases hs
    · next s1 h1 =>
      obtain ⟨h2, h3⟩ := dead_step hrn hone (ha a (by simp)) h1
      exact ih h2 h3 (fun b hb => ha b (by simp [hb])) hs

/-- The situation is reached: the thread runs the processor, an event is published, its handler throws a foreign exception. -/
theorem C65_example_destructor_waits :
    (run .blocking .init
      ([.callRun 0 0] ++ List.replicate 3 (.step 0 0) ++ [.callPublish 1 0] ++ List.replicate 5 (.step 1 0) ++
        List.replicate 4 (.step 0 0) ++ [.throwOther 0, .step 0 0])).map
      (fun s => (s.pc 0, s.pc 1, s.running 0, s.log 0)) = some (.idle, .idle, false, [0]) := by decide +kernel

/-! ### C25 across halts and restarts -/

/-- The only thread that ever calls `run()` of `o` is `t`, and handlers on it throw nothing but `std::exception`s. -/
def OneRunner (o t : Nat) : Act → Prop
  | .callRun u o' => o' = o → u = t
  | .throwOther u => u ≠ t
  | _ => True

/-- States reachable with such actions. -/
inductive ReachOne (w : Strat) (o t : Nat) : St → Prop
  | init : ReachOne w o t .init
  | step {s s' : St} (a : Act) : ReachOne w o t s → OneRunner o t a → Proc.step w s a = some s' → ReachOne w o t s'

/-- Where the thread is, with `n` events handled and the public sequence `q`. -/
def posOk (o : Nat) (q n : Int) : Pc → Prop
  | .rBatch o' nx av => if o' = o then nx = n ∧ nx ≤ av + 1 ∧ q < n else q + 1 = n
  | .rHandle o' nx av => if o' = o then nx + 1 = n ∧ nx ≤ av ∧ q < n else q + 1 = n
  | .rTop o' nx | .rCur o' nx | .rLock o' nx | .rSig o' nx | .rCur2 o' nx | .rAlert o' nx | .rEnter o' nx | .rAsleep o' nx | .rWake o' nx
  | .rCur3 o' nx | .rTWake o' nx | .rTOut o' nx | .rTNotify o' nx | .rUnlock o' nx | .rUnwind o' nx | .rDep o' nx | .rDepAlert o' nx
  | .rCaught o' nx | .rPhase o' nx _ => (o' = o → nx = n) ∧ q + 1 = n
  | _ => q + 1 = n

structure RInv (o t : Nat) (s : St) (n : Nat) : Prop where
  log : s.log o = ((List.range n).map Int.ofNat).reverse
  pos : posOk o (s.seq o) n (s.pc t)
  others : ∀ u, u ≠ t → (s.pc u).obj ≠ some o

theorem RInv.step {w : Strat} {o t : Nat} {s s' : St} {n : Nat} (h : RInv o t s n) {a : Act} (ha : OneRunner o t a) (hs : step w s a = some s') :
    ∃ n', RInv o t s' n' := by
  obtain ⟨hl, hp, ho⟩ := h
  have hout : ∀ u, u ≠ t → (s'.pc u).obj ≠ some o := by
    intro u hu
    by_cases hau : ∃ o', a = .callRun u o'
    · obtain ⟨o', rfl⟩ := hau
      simp only [Proc.step] at hs
      split at hs <;> cases hs
      simp only [St.goto, upd_same, Pc.obj, ne_eq, Option.some.injEq]
      exact fun e => hu (ha e)
    · exact upd_obj_step (ho u hu) (fun e => hau ⟨o, e⟩) hs
  by_cases hat : a.thread = t
  · cases a with
    | step u v =>
      simp only [Act.thread] at hat; subst hat
      simp only [Proc.step, stepT] at hs
      split at hs <;> (rename_i e; rw [e] at hp; simp only [posOk] at hp)
      case h_22 =>
        rename_i o' nx av
        split at hs <;> cases hs
        · by_cases eo : o' = o
          · subst eo
            simp only [if_true] at hp
            refine ⟨n + 1, ⟨?_, ?_, hout⟩⟩
            · simp only [St.goto, upd_same, hl, List.range_succ, List.map_append, List.reverse_append]
              simp [hp.1]
            · simp only [St.goto, upd_same, posOk, if_true]; push_cast; omega
          · rw [if_neg eo] at hp
            refine ⟨n, ⟨?_, ?_, hout⟩⟩
            · simp only [St.goto]; rw [upd_other _ _ (fun e => eo e.symm)]; exact hl
            · simp only [St.goto, upd_same, posOk, if_neg eo]; exact hp
        · by_cases eo : o' = o
          · subst eo
            simp only [if_true] at hp
            refine ⟨n, ⟨hl, ?_, hout⟩⟩
            simp only [St.goto, upd_same, posOk]; omega
          · rw [if_neg eo] at hp
            refine ⟨n, ⟨hl, ?_, hout⟩⟩
            simp only [St.goto, upd_same, posOk]
            rw [upd_other _ _ (fun e => eo e.symm)]
            exact ⟨fun e => absurd e eo, hp⟩
      all_goals
        (repeat' split at hs) <;> (try cases hs) <;>
        (refine ⟨n, ⟨?_, ?_, hout⟩⟩ <;>
          (first
            | exact hl
            | (simp only [St.goto, St.tell]; split <;> exact hl)
            | (simp only [St.goto, St.tell, upd_same, firstPc, lockedPc, wokenPc] <;> (repeat' split) <;> simp only [posOk] <;> grind)))
    | throwStd u =>
      simp only [Act.thread] at hat; subst hat
      simp only [Proc.step] at hs
      split at hs <;> cases hs
      rename_i o' nx av e
      rw [e] at hp
      simp only [posOk] at hp
      refine ⟨n, ⟨hl, ?_, hout⟩⟩
      simp only [St.goto, upd_same, posOk, upd_apply]
      grind
    | throwOther u => exact absurd hat ha
    | _ =>
      simp only [Act.thread] at hat; subst hat
      simp only [Proc.step] at hs
      (repeat' split at hs) <;> (try cases hs) <;> (rename_i e; refine ⟨n, ⟨hl, ?_, hout⟩⟩) <;>
        simp_all [St.goto, posOk]
  · have hpc : posOk o (s.seq o) n (s'.pc t) := by
      rcases step_other hs hat with e | ⟨o', nx, e1, e2⟩
      · rw [e]; exact hp
      · rw [e1] at hp; rw [e2]; exact hp
    have hk : s'.log o = s.log o ∧ s'.seq o = s.seq o := by
      cases a with
      | step u v =>
        have h3 := ho u hat
        simp only [Proc.step, stepT] at hs
        split at hs <;> (rename_i e; rw [e] at h3; simp only [Pc.obj, ne_eq, Option.some.injEq] at h3) <;>
          (repeat' split at hs) <;> (try cases hs) <;> (try exact ⟨rfl, rfl⟩)
        all_goals first
          | (simp only [St.goto, St.tell]; split <;> exact ⟨rfl, rfl⟩)
          | (simp only [St.goto, upd_apply]; grind)
      | throwStd u =>
        have h3 := ho u hat
        simp only [Proc.step] at hs
        split at hs <;> cases hs
        rename_i o' nx av e
        rw [e] at h3
        simp only [Pc.obj, ne_eq, Option.some.injEq] at h3
        exact ⟨rfl, upd_other _ _ (fun e => h3 e.symm)⟩
      | _ =>
        simp only [Proc.step] at hs
        (repeat' split at hs) <;> (try cases hs) <;> exact ⟨rfl, rfl⟩
    exact ⟨n, ⟨by rw [hk.1]; exact hl, by rw [hk.2]; exact hpc, hout⟩⟩

theorem ReachOne.inv {w : Strat} {o t : Nat} {s : St} (h : ReachOne w o t s) : ∃ n, RInv o t s n := by
  induction h with
  | init => exact ⟨0, rfl, by simp [St.init, posOk], by simp [St.init, Pc.obj]⟩
  | step a _ ha hs ih => obtain ⟨n, hi⟩ := ih; exact hi.step ha hs

/-- **C25** across `halt()` and further calls of `run()`: if only one thread runs the processor (at a time it is the same one) and the handler throws
nothing but `std::exception`s, then, whatever all threads do (halts at any moment included), the handler has been called for 0, 1, 2, …, each once
and in this order, over all calls of `run()`; the public sequence is below the next event, and is exactly the last handled event whenever the
thread is outside a batch; in particular the next `run()` goes on with the first event that was not handled.  Partial: other exceptions
(`C25_foreign_exception_repeats`) and two threads (`C26_two_runners`) break it; the values `v` of the barrier are arbitrary.
Missing: other exceptions, where it fails (`C25_foreign_exception_repeats`), and several threads that run the same processor. -/
theorem C25_restart_in_order_partial {w : Strat} {o t : Nat} {s : St} (h : ReachOne w o t s) :
    ∃ n : Nat, (s.log o).reverse = (List.range n).map Int.ofNat ∧ s.seq o < n ∧
      (s.pc t = .idle → s.seq o + 1 = n) ∧ (∀ nx, s.pc t = .rTop o nx → nx = n ∧ s.seq o + 1 = n) := by
  obtain ⟨n, hl, hp, _⟩ := h.inv
  refine ⟨n, by rw [hl, List.reverse_reverse], ?_, ?_, ?_⟩
  · generalize s.pc t = p at hp
    cases p <;> simp only [posOk] at hp <;> grind
  · intro e; rw [e] at hp; exact hp
  · intro nx e; rw [e] at hp; exact ⟨hp.1 rfl, hp.2⟩

theorem ReachOne.of_run {w : Strat} {o t : Nat} {s s' : St} (h : ReachOne w o t s) (as : List Act) (ha : ∀ a ∈ as, OneRunner o t a)
    (hs : run w s as = some s') : ReachOne w o t s' := by
  induction as generalizing s with
  | nil => cases hs; exact h
  | cons a as ih =>
    simp only [run] at hs
    split at hs
    · cases hs
    · next s1 h1 => exact ih (.step a h (ha a (by simp)) h1) (fun b hb => ha b (by simp [hb])) hs

/-- A reachable case: events 0 and 1 are published, the handler throws on event 0, `halt()` comes, `run()` returns and is called again with more events. -/
theorem C25_example_restart :
    (run .spin .init
      ([.callPublish 3 1, .step 3 0, .step 3 0, .callRun 0 0] ++ List.replicate 6 (.step 0 1) ++ [.throwStd 0, .callHalt 1 0, .step 1 0] ++
        List.replicate 5 (.step 0 1) ++ [.step 1 0, .step 1 0] ++ List.replicate 3 (.step 0 1) ++
        [.callRun 0 0] ++ List.replicate 11 (.step 0 3))).map
      (fun s => (s.log 0, s.seq 0, s.pc 1)) =
    some ([3, 2, 1, 0], 3, .idle) := by decide +kernel


/-- A `std::exception` in the middle of a batch neither repeats nor skips (C25). -/
example :
    (run .spin .init
      ([.callPublish 3 1, .step 3 0, .step 3 0, .callRun 0 0] ++ List.replicate 6 (.step 0 1) ++ [.throwStd 0] ++
        List.replicate 5 (.step 0 1))).map
      (fun s => (s.log 0, s.seq 0)) =
    some ([1, 0], 1) := by decide +kernel

/-! The hypotheses of `C26_halt_stops_partial` are met by an infinite execution: processor 0 waits in thread 0, thread 1 has called its
`halt()`; both go on until they return; afterwards thread 9 calls `run()` of processor 7 again and again, which is refused because it is
already running. -/

/-- the state in which the execution starts -/
def exStart : Option St := run .blocking .init
  ([.callRun 8 7, .step 8 0, .callRun 0 0] ++ List.replicate 9 (.step 0 0) ++ [.callHalt 1 0])

def exσ (i : Nat) : Act :=
  if i < 6 then .step 1 0 else if i < 12 then .step 0 0 else if i % 2 = 0 then .callRun 9 7 else .step 9 0

/-- `n` steps of the execution. -/
def exRun (s : St) : Nat → Option St
  | 0 => some s
  | n + 1 => (exRun s n).bind (fun s' => step .blocking s' (exσ n))

example : ∃ ρ σ, Exec .blocking ρ σ ∧ (ρ 0).pc 1 = .hRun 0 ∧ ((ρ 0).pc 0).obj = some 0 ∧
    (∀ u, (ρ 0).pc u ≠ .rCas 0 ∧ (ρ 0).pc u ≠ .rClear 0) ∧ (∀ i u, σ i ≠ .callRun u 0) ∧ Scheduled ρ σ 1 ∧ Scheduled ρ σ 0 := by
  have reachRun : ∀ (as : List Act) {s s' : St}, Reach .blocking s → run .blocking s as = some s' → Reach .blocking s' := by
    intro as
    induction as with
    | nil => intro s s' h e; cases e; exact h
    | cons a as ih =>
      intro s s' h e
      simp only [run] at e
      split at e
      · cases e
      · next s1 h1 => exact ih (.step a h h1) e
  obtain ⟨s0, h0⟩ : ∃ s0, exStart = some s0 := by
    have : exStart.isSome = true := by decide +kernel
    exact Option.isSome_iff_exists.mp this
  have hr0 : Reach .blocking s0 := reachRun _ .init h0
  have tail : ∀ s : St, s.pc 9 = .idle → s.running 7 = true →
      step .blocking s (.callRun 9 7) = some (s.goto 9 (.rCas 7)) ∧ step .blocking (s.goto 9 (.rCas 7)) (.step 9 0) = some s := by
    intro s h1 h2
    refine ⟨by simp [Proc.step, h1], ?_⟩
    have e : upd (upd s.pc 9 (.rCas 7)) 9 .idle = s.pc := by
      funext u
      simp only [upd_apply]
      split
      · next e => rw [e, h1]
      · rfl
    have h3 : (s.goto 9 (.rCas 7)).pc 9 = .rCas 7 := by simp [St.goto]
    simp only [Proc.step, stepT, h3]
    rw [if_pos (show (s.goto 9 (.rCas 7)).running 7 = true from h2)]
    simp only [St.goto, e]
  -- twelve steps
  have h12 : (exStart.bind (fun s => exRun s 12)).map (fun s => (s.pc 9, s.running 7, s.pc 0, s.pc 1)) =
      some (.idle, true, .idle, .idle) := by decide +kernel
  have hpre : (exStart.bind (fun s => some (s.pc 1, (s.pc 0).obj))) = some (.hRun 0, some 0) := by decide +kernel
  rw [h0] at h12 hpre
  simp only [Option.bind_some] at h12 hpre
  obtain ⟨S, hS⟩ : ∃ S, exRun s0 12 = some S := by
    cases h : exRun s0 12 with
    | none => rw [h] at h12; cases h12
    | some S => exact ⟨S, rfl⟩
  rw [hS] at h12
  simp only [Option.map_some, Option.some.injEq, Prod.mk.injEq] at h12
  obtain ⟨a1, a2, a3, a4⟩ := h12
  have later : ∀ k, exRun s0 (12 + 2 * k) = some S ∧ exRun s0 (12 + 2 * k + 1) = some (S.goto 9 (.rCas 7)) := by
    intro k
    have one : ∀ k, exRun s0 (12 + 2 * k) = some S → exRun s0 (12 + 2 * k + 1) = some (S.goto 9 (.rCas 7)) := by
      intro k h
      have e : exσ (12 + 2 * k) = .callRun 9 7 := by
        simp only [exσ]; rw [if_neg (by omega), if_neg (by omega), if_pos (by omega)]
      rw [exRun, h, e]
      exact (tail S a1 a2).1
    induction k with
    | zero => exact ⟨hS, one 0 hS⟩
    | succ k ih =>
      have h2 : exRun s0 (12 + 2 * (k + 1)) = some S := by
        have e : exσ (12 + 2 * k + 1) = .step 9 0 := by
          simp only [exσ]; rw [if_neg (by omega), if_neg (by omega), if_neg (by omega)]
        show exRun s0 (12 + 2 * k + 1 + 1) = some S
        rw [exRun, ih.2, e]
        exact (tail S a1 a2).2
      exact ⟨h2, one _ h2⟩
  have some_down : ∀ n, (exRun s0 (n + 1)).isSome = true → (exRun s0 n).isSome = true := by
    intro n h
    rw [exRun] at h
    cases e : exRun s0 n with
    | none => rw [e] at h; cases h
    | some _ => rfl
  have allSome : ∀ n, (exRun s0 n).isSome = true := by
    intro n
    by_cases hn : 12 ≤ n
    · obtain ⟨k, hk⟩ : ∃ k, n = 12 + 2 * k ∨ n = 12 + 2 * k + 1 := ⟨(n - 12) / 2, by omega⟩
      rcases hk with hk | hk
      · rw [hk, (later k).1]; rfl
      · rw [hk, (later k).2]; rfl
    · have : ∀ m, n + m = 12 → (exRun s0 n).isSome = true := by
        intro m
        clear hn
        induction m generalizing n with
        | zero => intro e; have : n = 12 := e; rw [this, hS]; rfl
        | succ m ih => intro e; exact some_down n (ih (n + 1) (by omega))
      exact this (12 - n) (by omega)
  have idle1 : ∀ i, 12 ≤ i → ∀ t, (t = 0 ∨ t = 1) → ((exRun s0 i).getD s0).pc t = .idle := by
    intro i hi t ht
    obtain ⟨k, hk⟩ : ∃ k, i = 12 + 2 * k ∨ i = 12 + 2 * k + 1 := ⟨(i - 12) / 2, by omega⟩
    rcases hk with hk | hk
    · rw [hk, (later k).1]; rcases ht with rfl | rfl <;> assumption
    · rw [hk, (later k).2]; rcases ht with rfl | rfl <;> simpa [St.goto, upd_apply]
  have idle2 : ∀ i, 6 ≤ i → i < 12 → ((exRun s0 i).getD s0).pc 1 = .idle := by
    have h : (exStart.map (fun s => ((List.range 6).map (fun i => ((exRun s (i + 6)).getD s).pc 1)))) =
      some (List.replicate 6 .idle) := by decide +kernel
    rw [h0] at h
    simp only [Option.map_some, Option.some.injEq] at h
    intro i h6 h12
    have := congrArg (fun l => l[i - 6]?) h
    simp only [List.getElem?_map, List.getElem?_range (show i - 6 < 6 by omega), Option.map_some] at this
    rw [show i - 6 + 6 = i by omega] at this
    rw [List.getElem?_replicate_of_lt (by omega)] at this
    exact Option.some.inj this
  refine ⟨fun i => (exRun s0 i).getD s0, exσ, ⟨hr0, ?_⟩, ?_, ?_, ?_, ?_, ?_, ?_⟩
  · intro i
    obtain ⟨x, hx⟩ := Option.isSome_iff_exists.mp (allSome i)
    obtain ⟨y, hy⟩ := Option.isSome_iff_exists.mp (allSome (i + 1))
    simp only [hx, hy, Option.getD_some]
    rw [exRun, hx] at hy
    exact hy
  · simp only [exRun, Option.getD_some]
    simpa using (Prod.ext_iff.mp (Option.some.inj hpre)).1
  · simp only [exRun, Option.getD_some]
    simpa using (Prod.ext_iff.mp (Option.some.inj hpre)).2
  · intro u
    simp only [exRun, Option.getD_some]
    by_cases hu : u = 0 ∨ u = 1 ∨ u = 8
    · have h : exStart.map (fun s => [0, 1, 8].map (fun u => decide (s.pc u ≠ .rCas 0 ∧ s.pc u ≠ .rClear 0))) =
          some [true, true, true] := by decide +kernel
      rw [h0] at h
      simp only [Option.map_some, List.map_cons, List.map_nil, Option.some.injEq, List.cons.injEq, decide_eq_true_eq, and_true] at h
      rcases hu with rfl | rfl | rfl
      · exact h.1
      · exact h.2.1
      · exact h.2.2
    · have idle : ∀ (as : List Act) {s s' : St}, s.pc u = .idle → (∀ a ∈ as, a.thread ≠ u) → run .blocking s as = some s' → s'.pc u = .idle := by
        intro as
        induction as with
        | nil => intro s s' h _ e; cases e; exact h
        | cons a as ih =>
          intro s s' h ha e
          simp only [run] at e
          split at e
          · cases e
          · next s1 h1 =>
            refine ih ?_ (fun b hb => ha b (by simp [hb])) e
            rcases step_other h1 (ha a (by simp)) with e | ⟨o, nx, e, -⟩
            · rw [e, h]
            · rw [h] at e; cases e
      have h9 := idle _ (s := .init) rfl (by
        intro a ha
        simp only [List.mem_append, List.mem_cons, List.not_mem_nil, or_false, List.mem_replicate] at ha
        rcases ha with ((rfl | rfl | rfl) | ⟨-, rfl⟩) | rfl <;> simp only [Act.thread] <;> omega) h0
      rw [h9]; simp
  · intro i u
    simp only [exσ]
    split
    · simp
    · split
      · simp
      · split <;> simp
  · intro i hi
    by_cases h : i < 6
    · exact ⟨i, Nat.le_refl _, by simp [exσ, h, Act.thread]⟩
    · by_cases h2 : i < 12
      · exact absurd (idle2 i (by omega) h2) hi
      · exact absurd (idle1 i (by omega) 1 (Or.inr rfl)) hi
  · intro i hi
    by_cases h : i < 6
    · exact ⟨6, by omega, by simp [exσ, Act.thread]⟩
    · by_cases h2 : i < 12
      · exact ⟨i, Nat.le_refl _, by simp [exσ, h, h2, Act.thread]⟩
      · exact absurd (idle1 i (by omega) 0 (Or.inl rfl)) hi

end Verif.Proc
