import Verif.Lemmas.RaWait

/-!
C62: no lost wake-up, for all values that loads of atomic variables may return.  `St.newest l` is the newest value of the atomic variable `l`;
a thread may read an older one.
-/

namespace Verif.RaWait
open Verif Verif.RA

theorem newest_some {s : St} {l : Nat} {x : Int} (h : s.newest l = some x) : ∃ g, (s.mem.msgs l).getLast? = some g ∧ g.val = x := by
  unfold St.newest Mem.last at h
  cases hg : (s.mem.msgs l).getLast? with
  | none => rw [hg] at h; cases h
  | some g => rw [hg] at h; simp at h; exact ⟨g, rfl, h⟩

/-- Blocking strategy: if a processor sleeps although the cursor has reached its sequence or its barrier is alerted, then some thread is still about
to notify: it is going to take the mutex, or holds it.
Missing: the lite strategy (C62_violation_lite_lost_wakeup). -/
theorem C62_blocking_no_lost_wakeup_partial {s : St} (h : Reach .blocking s) {t o : Nat} {nx : Int} (ht : s.pc t = .rAsleep o nx)
    (hr : (∃ x, s.newest cursor = some x ∧ nx ≤ x) ∨ ∃ v, s.newest (alerted o) = some v ∧ v ≠ 0) :
    ∃ u, s.pc u = .sLock ∨ s.pc u = .sNotify := by
  have h1 := h.inv.1.thr t
  rw [ht] at h1
  rcases h1 with (⟨u, hu⟩ | ⟨u, hu⟩) | ⟨h1, h2⟩
  · exact ⟨u, .inl hu⟩
  · exact ⟨u, .inr hu⟩
  · rcases hr with ⟨x, hx, hle⟩ | ⟨v, hv, hne⟩
    · obtain ⟨g, hg, rfl⟩ := newest_some hx
      have := h1 g hg; omega
    · obtain ⟨g, hg, rfl⟩ := newest_some hv
      exact absurd (h2 g hg) hne

/-- Blocking strategy: when all signalling is over, nobody sleeps who should not.
Missing: the lite strategy. -/
theorem C62_blocking_quiescent_partial {s : St} (h : Reach .blocking s) (hq : ¬ s.Signalling) {t o : Nat} {nx : Int} (ht : s.pc t = .rAsleep o nx) :
    (∀ x, s.newest cursor = some x → x < nx) ∧ ∀ v, s.newest (alerted o) = some v → v = 0 := by
  constructor
  · intro x hx
    refine Decidable.byContradiction fun hlt => hq ?_
    obtain ⟨u, hu⟩ := C62_blocking_no_lost_wakeup_partial h ht (.inl ⟨x, hx, by omega⟩)
    exact ⟨u, .inr hu⟩
  · intro v hv
    refine Decidable.byContradiction fun hlt => hq ?_
    obtain ⟨u, hu⟩ := C62_blocking_no_lost_wakeup_partial h ht (.inr ⟨v, hv, hlt⟩)
    exact ⟨u, .inr hu⟩

/-- The notifying thread wakes every sleeper, and releases the mutex. -/
theorem C62_notify_wakes {w : Strat} {s s' : St} {u i : Nat} (hu : s.pc u = .sNotify) (hs : step w s (.go u i) = some s') :
    (∀ t o nx, s.pc t = .rAsleep o nx → s'.pc t = .rWoken o nx) ∧ s'.newest mutex = some 0 ∧ s'.pc u = .idle := by
  simp only [step, hu, Option.some.injEq] at hs
  subst hs
  refine ⟨fun t o nx ht => ?_, ?_, ?_⟩
  · simp only [unlock]
    rw [upd_other]
    · simp only [ht]
    · rintro rfl; rw [hu] at ht; cases ht
  · simp [St.newest, Mem.last, unlock, Mem.store]
  · simp [unlock]

/-- Blocking strategy: a processor that has taken the mutex (first or after a wake-up) reads the newest cursor, unless another notification is on its
way: it never goes back to sleep on a stale value.
Missing: the lite strategy. -/
theorem C62_blocking_fresh_partial {s s' : St} (h : Reach .blocking s) {t o i : Nat} {nx x : Int} (ht : s.pc t = .rCheck o nx) (hq : ∀ u, s.pc u ≠ .sLock)
    (hx : s.newest cursor = some x) (hs : step .blocking s (.go t i) = some s') : s'.pc t = if x < nx then .rAlert o nx else .idle := by
  have hi := h.inv.1
  simp only [step, ht] at hs
  unfold load at hs
  split at hs
  · next v m hl =>
    obtain ⟨g, hg, hgv, hle, rfl⟩ := Mem.load_some hl
    obtain ⟨g', hg', rfl⟩ := newest_some hx
    have hv : v = g'.val := by
      refine Decidable.byContradiction fun hne => ?_
      obtain ⟨u, hu⟩ := old_pend hi (by rw [ht]; trivial) hg hle hg' (.inl rfl) (by rw [hgv]; exact hne)
      exact hq u hu
    subst hv
    cases hs
    split
    · simp only [unlock, upd_same]
    · simp only [upd_same]
  · cases hs

/-- The mutex excludes: of all threads that are between `lock` and `unlock` there is at most one. -/
theorem C62_blocking_excl {s : St} (h : Reach .blocking s) {t u : Nat} (ht : (s.pc t).Holds) (hu : (s.pc u).Holds) : t = u :=
  h.inv.1.excl t u ht hu

/-! Mutual exclusion for both strategies. -/

structure Excl (s : St) : Prop where
  excl : ∀ t u, (s.pc t).Holds → (s.pc u).Holds → t = u
  locked : ∀ t, (s.pc t).Holds → Newest s mutex (· ≠ 0)

/-- A step of `t` that neither takes nor releases the mutex. -/
theorem Excl.same {s s' : St} (h : Excl s) {t : Nat} (hp : ∀ u, u ≠ t → (s'.pc u).Holds → (s.pc u).Holds) (ht : (s'.pc t).Holds → (s.pc t).Holds)
    (hm : s'.mem.msgs mutex = s.mem.msgs mutex) : Excl s' := by
  have hh : ∀ u, (s'.pc u).Holds → (s.pc u).Holds := fun u hu => by
    by_cases e : u = t
    · subst e; exact ht hu
    · exact hp u e hu
  refine ⟨fun a b ha hb => h.excl a b (hh a ha) (hh b hb), fun a ha g hg => ?_⟩
  rw [hm] at hg
  exact h.locked a (hh a ha) g hg

theorem Excl.lock {s s' : St} (h : Excl s) {t : Nat} {pc : Pc} (hs : lock s t pc = some s') : Excl s' := by
  unfold RaWait.lock at hs
  split at hs
  · rename_i v mem hr
    split at hs
    · rename_i hv
      cases hs
      unfold Mem.rmw at hr
      split at hr
      · rename_i g hg
        cases hr
        have none_holds : ∀ u, ¬ (s.pc u).Holds := fun u hu => h.locked u hu g hg hv
        refine ⟨fun a b ha hb => ?_, fun a ha g' hg' => ?_⟩
        · by_cases ea : a = t
          · by_cases eb : b = t
            · rw [ea, eb]
            · exact absurd (by simpa [upd_other _ _ eb] using hb) (none_holds b)
          · exact absurd (by simpa [upd_other _ _ ea] using ha) (none_holds a)
        · simp at hg'
          rw [← hg']; exact Int.one_ne_zero
      · cases hr
    · cases hs
  · cases hs

theorem Excl.unlock {s : St} (h : Excl s) {t : Nat} {pc : Pc} (ht : (s.pc t).Holds) (hpc : ¬ pc.Holds) : Excl (unlock s t pc) := by
  have none_holds : ∀ u, ¬ ((RaWait.unlock s t pc).pc u).Holds := by
    intro u hu
    by_cases e : u = t
    · subst e; simp [RaWait.unlock] at hu; exact hpc hu
    · simp [RaWait.unlock, upd_other _ _ e] at hu
      exact e (h.excl u t hu ht)
  exact ⟨fun a _ ha => absurd ha (none_holds a), fun a ha => absurd ha (none_holds a)⟩

theorem Excl.load {s s' : St} (h : Excl s) {t l i : Nat} {unl : Int → Bool} {pc : Int → Pc} (hs : load s t l i unl pc = some s')
    (hk : ∀ v, (pc v).Holds → (s.pc t).Holds ∧ unl v = false) (hu : ∀ v, unl v = true → (s.pc t).Holds) : Excl s' := by
  unfold RaWait.load at hs
  split at hs
  · rename_i v mem hl
    obtain ⟨g, _, _, _, rfl⟩ := Mem.load_some hl
    simp only [Option.some.injEq] at hs
    cases e : unl v with
    | true =>
      rw [e, if_pos rfl] at hs
      subst hs
      have hn : ∀ u, ¬ ((RaWait.unlock ⟨{ s.mem with view := upd s.mem.view t (((s.mem.view t).join g.view).see l i) }, upd s.pc t (pc v)⟩ t (pc v)).pc u).Holds := by
        intro u hh
        by_cases eu : u = t
        · subst eu
          simp [RaWait.unlock] at hh
          have := (hk v hh).2; rw [e] at this; cases this
        · simp [RaWait.unlock, upd_other _ _ eu] at hh
          exact eu (h.excl u t hh (hu v e))
      exact ⟨fun a _ ha => absurd ha (hn a), fun a ha => absurd ha (hn a)⟩
    | false =>
      rw [e, if_neg (by decide)] at hs
      subst hs
      refine h.same (t := t) (fun u hu hh => by simpa [upd_other _ _ hu] using hh) (fun hh => ?_) rfl
      simp at hh
      exact (hk v hh).1
  · cases hs

theorem Excl.store {s : St} (h : Excl s) {t l : Nat} {v : Int} {pc : Pc} (hl : l ≠ mutex) (hpc : pc.Holds → (s.pc t).Holds) :
    Excl ⟨s.mem.store t l v, upd s.pc t pc⟩ := by
  refine h.same (t := t) (fun u hu hh => by simpa [upd_other _ _ hu] using hh) (fun hh => by simp at hh; exact hpc hh) ?_
  exact upd_other _ _ (Ne.symm hl)

theorem Excl.step {w : Strat} {s s' : St} {a : Act} (h : Excl s) (hs : RaWait.step w s a = some s') : Excl s' := by
  have hsig : ¬ w.sig.Holds := by cases w <;> simp [Strat.sig, Pc.Holds]
  cases a with
  | publish t x =>
    simp only [RaWait.step] at hs
    split at hs <;> cases hs
    exact h.store (by decide) (fun hh => absurd hh hsig)
  | alert t o =>
    simp only [RaWait.step] at hs
    split at hs <;> cases hs
    exact h.store (by simp [alerted, mutex]) (fun hh => absurd hh hsig)
  | clearAlert t o =>
    simp only [RaWait.step] at hs
    split at hs <;> cases hs
    refine h.same (t := t) (fun u _ hh => hh) (fun hh => hh) ?_
    simp [Mem.store, alerted, mutex]
  | wait t o nx =>
    simp only [RaWait.step] at hs
    split at hs <;> cases hs
    exact h.same (t := t) (fun u hu hh => by simpa [upd_other _ _ hu] using hh) (fun hh => by simp [Pc.Holds] at hh) rfl
  | spurious t =>
    simp only [RaWait.step] at hs
    split at hs <;> cases hs
    exact h.same (t := t) (fun u hu hh => by simpa [upd_other _ _ hu] using hh) (fun hh => by simp [Pc.Holds] at hh) rfl
  | go t i =>
    simp only [RaWait.step] at hs
    split at hs
    · cases hs
    · rename_i hp
      unfold Mem.rmwRel at hs
      cases hl : s.mem.last signal with
      | none => rw [hl] at hs; cases hs
      | some g =>
        rw [hl] at hs
        simp only [Option.some.injEq] at hs
        subst hs
        refine h.same (t := t) (fun u hu hh => by simpa [upd_other _ _ hu] using hh) (fun hh => ?_) ?_
        · simp at hh; split at hh <;> simp [Pc.Holds] at hh
        · simp [mutex, signal]
    · exact h.lock hs
    · rename_i hp
      simp only [Option.some.injEq] at hs
      subst hs
      have h' : Excl ⟨s.mem, fun u => match s.pc u with | .rAsleep o nx => .rWoken o nx | p => p⟩ := by
        have key : ∀ u, (match s.pc u with | .rAsleep o nx => Pc.rWoken o nx | p => p).Holds → (s.pc u).Holds := by
          intro u hh
          cases e : s.pc u <;> rw [e] at hh <;> first | exact hh | (simp [Pc.Holds] at hh)
        exact h.same (t := t) (fun u _ hh => key u hh) (fun hh => key t hh) rfl
      exact h'.unlock (by simp only [hp]; trivial) (by simp [Pc.Holds])
    · rename_i o nx hp
      exact h.load hs (fun v hh => by split at hh <;> simp [Pc.Holds] at hh) (fun v hv => by cases hv)
    · exact h.lock hs
    · rename_i o nx hp
      cases hs
      exact h.store (by decide) (fun _ => by rw [hp]; trivial)
    · rename_i o nx hp
      refine h.load hs (fun v hh => ⟨by rw [hp]; trivial, ?_⟩) (fun v _ => by rw [hp]; trivial)
      split at hh
      · rename_i hv; simp [hv]
      · simp [Pc.Holds] at hh
    · rename_i o nx hp
      refine h.load hs (fun v hh => ⟨by rw [hp]; trivial, ?_⟩) (fun v _ => by rw [hp]; trivial)
      split at hh
      · rename_i hv; simp [hv]
      · simp [Pc.Holds] at hh
    · rename_i o nx hp
      simp only [Option.some.injEq] at hs
      subst hs
      exact h.unlock (by rw [hp]; trivial) (by simp [Pc.Holds])
    · cases hs
    · exact h.lock hs
    · rename_i o nx hp
      refine h.load hs (fun v hh => ⟨by rw [hp]; trivial, ?_⟩) (fun v _ => by rw [hp]; trivial)
      split at hh
      · rename_i hv; simp [hv]
      · simp [Pc.Holds] at hh

/-- **C62**, both strategies: at most one thread is between `lock` and `unlock`, whatever stale values the loads return. -/
theorem C62_excl {w : Strat} {s : St} (h : Reach w s) {t u : Nat} (ht : (s.pc t).Holds) (hu : (s.pc u).Holds) : t = u := by
  have : Excl s := by
    clear ht hu
    induction h with
    | init => exact ⟨fun t u h => by simp [St.init, Pc.Holds] at h, fun t h => by simp [St.init, Pc.Holds] at h⟩
    | step a _ hs ih => exact ih.step hs
  exact this.excl t u ht hu

theorem not_lt_of {v nx : Int} {p : Pc} (h : (if v < nx then p else .idle) = .idle) (hp : p ≠ .idle := by nofun) : nx ≤ v := by
  split at h
  · exact absurd h hp
  · omega

theorem ne_of_pc {v : Int} {p : Pc} (h : (if v = 0 then p else .idle) = .idle) (hp : p ≠ .idle := by nofun) : v ≠ 0 := by
  split at h
  · exact absurd h hp
  · assumption

/-- **C62**, both strategies: `wait_for` comes back only with a cursor that has reached the sequence, or because of an alert: whenever a
step ends a call of `wait_for(nx)`, the value just read was a message of the cursor not below `nx`, or one of the alert flag of the
barrier other than 0. -/
theorem C62_returns_for_a_reason {w : Strat} {s s' : St} {t i : Nat} {o : Nat} {nx : Int}
    (ht : s.pc t = .rLook o nx ∨ s.pc t = .rLock o nx ∨ s.pc t = .rSet o nx ∨ s.pc t = .rCheck o nx ∨ s.pc t = .rAlert o nx ∨ s.pc t = .rWait o nx ∨
      s.pc t = .rAsleep o nx ∨ s.pc t = .rWoken o nx ∨ s.pc t = .rAgain o nx)
    (hs : step w s (.go t i) = some s') (hend : s'.pc t = .idle) :
    (∃ g, (s.mem.msgs cursor)[i]? = some g ∧ nx ≤ g.val) ∨ (∃ g, (s.mem.msgs (alerted o))[i]? = some g ∧ g.val ≠ 0) := by
  have hlock : ∀ {pc : Pc}, pc ≠ .idle → lock s t pc = some s' → False := by
    intro pc hne hl
    unfold lock at hl
    split at hl
    · split at hl
      · cases hl; simp at hend; exact hne hend
      · cases hl
    · cases hl
  have hload : ∀ {l : Nat} {unl : Int → Bool} {pc : Int → Pc}, load s t l i unl pc = some s' → ∃ g, (s.mem.msgs l)[i]? = some g ∧ pc g.val = .idle := by
    intro l unl pc hl
    unfold load at hl
    split at hl
    · rename_i v mem hm
      obtain ⟨g, hg, rfl, _, _⟩ := Mem.load_some hm
      refine ⟨g, hg, ?_⟩
      simp only [Option.some.injEq] at hl
      subst hl
      split at hend <;> simpa [unlock] using hend
    · cases hl
  rcases ht with h | h | h | h | h | h | h | h | h <;> simp only [step, h] at hs
  · obtain ⟨g, hg, hv⟩ := hload hs
    exact Or.inl ⟨g, hg, not_lt_of hv⟩
  · exact (hlock (by cases w <;> nofun) hs).elim
  · cases hs; simp at hend
  · obtain ⟨g, hg, hv⟩ := hload hs
    exact Or.inl ⟨g, hg, not_lt_of hv⟩
  · obtain ⟨g, hg, hv⟩ := hload hs
    exact Or.inr ⟨g, hg, ne_of_pc hv⟩
  · cases hs; simp [unlock] at hend
  · cases hs
  · exact (hlock (by cases w <;> nofun) hs).elim
  · obtain ⟨g, hg, hv⟩ := hload hs
    exact Or.inl ⟨g, hg, not_lt_of hv⟩

/-- A processor goes to sleep after reading stale cursors; the publication wakes it and it sees the new cursor. -/
def exampleRun : List Act :=
  [.wait 1 0 0, .go 1 0, .go 1 0, .publish 0 0, .go 1 0, .go 1 0, .go 1 0, .go 0 0, .go 0 0, .go 1 0]

theorem C62_example : (run .blocking .init (exampleRun.take 7)).map (fun s => (s.pc 1, s.newest cursor, s.pc 0)) = some (.rAsleep 0 0, some 0, .sLock) ∧
    (run .blocking .init exampleRun).map (fun s => (s.pc 1, s.pc 0)) = some (.rCheck 0 0, .idle) ∧
    (run .blocking .init (exampleRun ++ [.go 1 0])).isNone ∧
    (run .blocking .init (exampleRun ++ [.go 1 1])).map (fun s => s.pc 1) = some .idle := by decide +kernel

/-- Violation (lite strategy): the processor stores `signal_needed_` and then reads an old cursor (store buffering: release stores and acquire loads
do not forbid it); the producer stored the cursor and exchanged `signal_needed_` before.  The processor sleeps although its sequence has been
published and nobody is going to wake it. -/
theorem C62_violation_lite_lost_wakeup :
    (run .lite .init [.wait 1 0 0, .go 1 0, .go 1 0, .publish 0 0, .go 0 0, .go 1 0, .go 1 0, .go 1 0, .go 1 0]).map
      (fun s => (s.pc 1, s.newest cursor, s.newest signal, s.pc 0)) = some (.rAsleep 0 0, some 0, some 1, .idle) := by decide +kernel

/-- The same for an alert: a halt is not noticed. -/
theorem C62_violation_lite_lost_alert :
    (run .lite .init [.wait 1 0 0, .go 1 0, .go 1 0, .alert 0 0, .go 0 0, .go 1 0, .go 1 0, .go 1 0, .go 1 0]).map
      (fun s => (s.pc 1, s.newest (alerted 0), s.newest signal, s.pc 0)) = some (.rAsleep 0 0, some 1, some 1, .idle) := by decide +kernel

end Verif.RaWait
