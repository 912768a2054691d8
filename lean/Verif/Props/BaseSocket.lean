import Verif.Model.BaseSocket

/-! Properties of the ownership of descriptors by socket objects (C50). -/

namespace Verif.Socket

/-! ### What `close()` does -/

/-- **C50** fails: whenever the system closes the descriptor without error, `close()` throws (unless `errno` happens to be left at `EINTR`), and
the object still has the number although the descriptor is closed.  The test of the result is inverted. -/
theorem C50_violation_close_throws {s s' : St} {o fd tok t : Nat} (ho : s.obj o = some ⟨some fd, tok⟩) (hp : s.pc o = .closing false)
    (ht : s.table fd = some t) (he : s.errno ≠ .EINTR) (hs : step s (.sysClose o none) = some s') :
    (∃ x, s'.result o = some (.threw x)) ∧ s'.obj o = some ⟨some fd, tok⟩ ∧ s'.table fd = none := by
  have hce : ∃ x, closeError s.errno = some x := by
    cases h : s.errno <;> simp_all [closeError]
  obtain ⟨x, hx⟩ := hce
  simp only [step, ho, hp, ht, hx, Option.some.injEq] at hs
  subst hs
  exact ⟨⟨x, by simp [St.leave]⟩, by simp [St.leave], by simp [St.leave, St.release]⟩

/-- `close()` returns normally only if the system reported a failure. -/
theorem C50_violation_returns_on_failure {s s' : St} {o : Nat} {err : Option Errno} (hp : s.pc o = .closing false)
    (hs : step s (.sysClose o err) = some s') (hr : s'.pc o = .idle ∧ s'.result o = some .returned) : err ≠ none := by
  rintro rfl
  simp only [step, hp] at hs
  split at hs
  · rename_i fd tok d h1 h2
    cases h2
    split at hs
    · split at hs
      · cases hs
        exact absurd (hp.symm.trans hr.1) (by simp)
      · cases hs
        have := hr.2
        simp [St.leave] at this
    · cases ‹none = some _›
    · cases ‹none = some _›
    · cases hs
  · cases hs

/-- The consequence: `close()` is called and its exception caught, the rest of the process opens a file and gets the same number, the socket
object is destroyed: the file is closed. -/
theorem C50_violation_close_steals :
    (run (St.init (.other 0)) [.construct 0 5, .callClose 0, .sysClose 0 none, .otherOpen 5, .destroy 0, .sysClose 0 none]).map
      (fun s => (s.table 5, s.stolen, s.result 0)) = some (none, true, some (.threw .runtime)) := by decide +kernel

/-- Without any explicit `close()`: if `errno` was left at `EINTR` the destructor calls `::close` again after having succeeded; another
thread may have been given the number in between. -/
theorem C50_violation_eintr :
    (run (St.init (.other 0)) [.construct 0 5, .setErrno .EINTR, .destroy 0, .sysClose 0 none, .otherOpen 5, .sysClose 0 none]).map
      (fun s => (s.table 5, s.stolen)) = some (none, true) := by decide +kernel

/-! ### No descriptor is leaked -/

/-- **C50** (nothing is leaked), every history: a descriptor opened by a socket object is owned by an existing object as long as it is open. -/
theorem C50_no_leak {e : Errno} {s : St} (h : Reach e s) :
    ∀ fd t, s.table fd = some t → s.foreign t = false → ∃ o ob, s.obj o = some ob ∧ ob.id = some fd := by
  have key : (∀ fd t, s.table fd = some t → t < s.next) ∧ (∀ t, s.foreign t = true → t < s.next) ∧
      ∀ fd t, s.table fd = some t → s.foreign t = false → ∃ o ob, s.obj o = some ob ∧ ob.id = some fd := by
    induction h with
    | init => exact ⟨nofun, nofun, nofun⟩
    | @step s s' a _ hs ih =>
      obtain ⟨ih1, ih2, ih3⟩ := ih
      cases a with
      | construct o fd =>
        simp only [step] at hs
        split at hs <;> cases hs
        rename_i hc
        refine ⟨?_, fun t ht => Nat.lt_succ_of_lt (ih2 t ht), ?_⟩
        · intro fd' t ht
          simp only [upd_apply] at ht
          split at ht
          · cases ht; exact Nat.lt_succ_self _
          · exact Nat.lt_succ_of_lt (ih1 _ _ ht)
        · intro fd' t ht hf
          simp only [upd_apply] at ht
          split at ht
          · rename_i hfd; subst hfd
            exact ⟨o, _, upd_same _ _ _, rfl⟩
          · obtain ⟨o', ob, h1, h2⟩ := ih3 _ _ ht hf
            exact ⟨o', ob, by show upd _ _ _ _ = _; rw [upd_other _ _ (fun h => by rw [h, hc.1] at h1; cases h1)]; exact h1, h2⟩
      | otherOpen fd =>
        simp only [step] at hs
        split at hs <;> cases hs
        refine ⟨?_, ?_, ?_⟩
        · intro fd' t ht
          simp only [upd_apply] at ht
          split at ht
          · cases ht; exact Nat.lt_succ_self _
          · exact Nat.lt_succ_of_lt (ih1 _ _ ht)
        · intro t ht
          simp only [upd_apply] at ht
          split at ht
          · rename_i h; subst h; exact Nat.lt_succ_self _
          · exact Nat.lt_succ_of_lt (ih2 t ht)
        · intro fd' t ht hf
          simp only [upd_apply] at ht hf
          split at hf
          · cases hf
          · split at ht
            · cases ht; contradiction
            · exact ih3 _ _ ht hf
      | otherClose fd =>
        simp only [step] at hs
        split at hs
        · split at hs <;> cases hs
          have hsub : ∀ fd' t, upd s.table fd none fd' = some t → s.table fd' = some t := by
            intro fd' t ht
            simp only [upd_apply] at ht
            split at ht
            · cases ht
            · exact ht
          exact ⟨fun fd' t ht => ih1 _ _ (hsub _ _ ht), ih2, fun fd' t ht hf => ih3 _ _ (hsub _ _ ht) hf⟩
        · cases hs
      | setErrno e' => cases hs; exact ⟨ih1, ih2, ih3⟩
      | moveConstruct o p =>
        simp only [step] at hs
        split at hs
        · rename_i q ho hp
          split at hs <;> cases hs
          refine ⟨ih1, ih2, ?_⟩
          intro fd t ht hf
          obtain ⟨o', ob, h1, h2⟩ := ih3 _ _ ht hf
          have hop : o ≠ p := fun h => by rw [h, hp] at ho; cases ho
          by_cases h' : o' = p
          · subst h'
            rw [hp] at h1
            cases h1
            exact ⟨o, q, by show upd _ _ _ _ = _; rw [upd_other _ _ hop, upd_same], h2⟩
          · refine ⟨o', ob, ?_, h2⟩
            show upd _ _ _ _ = _
            rw [upd_other _ _ h', upd_other _ _ (fun h => by rw [h, ho] at h1; cases h1)]
            exact h1
        · cases hs
      | swap o p =>
        simp only [step] at hs
        split at hs
        · rename_i a b ho hp
          split at hs <;> cases hs
          refine ⟨ih1, ih2, ?_⟩
          intro fd t ht hf
          obtain ⟨o', ob, h1, h2⟩ := ih3 _ _ ht hf
          by_cases h' : o' = o
          · subst h'
            rw [ho] at h1
            cases h1
            exact ⟨p, a, by show upd _ _ _ _ = _; rw [upd_same], h2⟩
          · by_cases h'' : o' = p
            · subst h''
              rw [hp] at h1
              cases h1
              exact ⟨o, b, by show upd _ _ _ _ = _; rw [upd_other _ _ (Ne.symm h'), upd_same], h2⟩
            · exact ⟨o', ob, by show upd _ _ _ _ = _; rw [upd_other _ _ h'', upd_other _ _ h']; exact h1, h2⟩
        · cases hs
      | callClose o =>
        simp only [step] at hs
        repeat' split at hs
        all_goals first
          | cases hs; done
          | (cases hs; exact ⟨ih1, ih2, ih3⟩)
      | destroy o =>
        simp only [step] at hs
        split at hs
        · rename_i ob ho
          split at hs
          · split at hs
            · rename_i hid
              cases hs
              refine ⟨ih1, ih2, ?_⟩
              intro fd t ht hf
              obtain ⟨o', ob', h1, h2⟩ := ih3 _ _ ht hf
              refine ⟨o', ob', ?_, h2⟩
              show upd _ _ _ _ = _
              rw [upd_other _ _ (fun h => by rw [h, ho] at h1; cases h1; rw [hid] at h2; cases h2)]
              exact h1
            · cases hs; exact ⟨ih1, ih2, ih3⟩
          · cases hs
        · cases hs
      | sysClose o err =>
        simp only [step] at hs
        split at hs
        · rename_i fd tok d ho hp
          have hsub : ∀ fd' t, upd s.table fd none fd' = some t → fd' ≠ fd ∧ s.table fd' = some t := by
            intro fd' t ht
            simp only [upd_apply] at ht
            split at ht
            · cases ht
            · exact ⟨‹_›, ht⟩
          have hkeep : ∀ (x : Option Obj) fd' t, fd' ≠ fd → s.table fd' = some t → s.foreign t = false →
              ∃ o' ob, upd s.obj o x o' = some ob ∧ ob.id = some fd' := by
            intro x fd' t hne ht hf
            obtain ⟨o', ob, h1, h2⟩ := ih3 _ _ ht hf
            refine ⟨o', ob, ?_, h2⟩
            rw [upd_other _ _ (fun h => by rw [h, ho] at h1; cases h1; cases h2; exact hne rfl)]
            exact h1
          split at hs
          · split at hs
            · cases hs
              exact ⟨fun fd' t ht => ih1 _ _ (hsub _ _ ht).2, ih2, fun fd' t ht hf => ih3 _ _ (hsub _ _ ht).2 hf⟩
            · cases hs
              exact ⟨fun fd' t ht => ih1 _ _ (hsub _ _ ht).2, ih2, fun fd' t ht hf => hkeep _ _ _ (hsub _ _ ht).1 (hsub _ _ ht).2 hf⟩
          · cases hs
            exact ⟨fun fd' t ht => ih1 _ _ (hsub _ _ ht).2, ih2, fun fd' t ht hf => hkeep _ _ _ (hsub _ _ ht).1 (hsub _ _ ht).2 hf⟩
          · rename_i hn
            cases hs
            refine ⟨ih1, ih2, fun fd' t ht hf => hkeep _ _ _ ?_ ht hf⟩
            rintro rfl
            have ht' : s.table fd' = some t := ht
            rw [hn] at ht'
            cases ht'
          · cases hs
        · cases hs
  exact key.2.2

/-! ### Ownership without explicit close -/

/-- The histories in which nobody calls `close()` and no system call leaves `EINTR` in `errno`. -/
inductive Raii (e : Errno) : St → Prop
  | init : Raii e (St.init e)
  | step {s s' a} : Raii e s → (∀ o, a ≠ .callClose o) → a ≠ .setErrno .EINTR → (∀ o, a ≠ .sysClose o (some .EINTR)) →
      step s a = some s' → Raii e s'

structure Own (s : St) : Prop where
  bound : ∀ fd t, s.table fd = some t → t < s.next
  fbound : ∀ t, s.foreign t = true → t < s.next
  owns : ∀ o fd tok, s.obj o = some ⟨some fd, tok⟩ → s.table fd = some tok ∧ s.foreign tok = false
  unique : ∀ o o' fd tok tok', s.obj o = some ⟨some fd, tok⟩ → s.obj o' = some ⟨some fd, tok'⟩ → o = o'
  pcs : ∀ o d, s.pc o = .closing d → d = true ∨ s.obj o = none
  err : s.errno ≠ .EINTR
  clean : s.stolen = false

theorem own_raii {e : Errno} (he : e ≠ .EINTR) {s : St} (h : Raii e s) : Own s := by
  induction h with
  | init =>
    exact ⟨nofun, nofun, nofun, nofun, nofun, he, rfl⟩
  | @step s s' a _ ha1 ha2 ha3 hs ih =>
    obtain ⟨i1, i2, i3, i4, i5, i6, i7⟩ := ih
    cases a with
    | construct o fd =>
      simp only [step] at hs
      split at hs <;> cases hs
      rename_i hc
      have hno : ∀ o' tok, s.obj o' ≠ some ⟨some fd, tok⟩ := fun o' tok h => by
        have := (i3 _ _ _ h).1
        rw [hc.2] at this; cases this
      refine ⟨?_, fun t ht => Nat.lt_succ_of_lt (i2 t ht), ?_, ?_, ?_, i6, i7⟩
      · intro fd' t ht
        simp only [upd_apply] at ht
        split at ht
        · cases ht; exact Nat.lt_succ_self _
        · exact Nat.lt_succ_of_lt (i1 _ _ ht)
      · intro o' fd' tok h'
        simp only [upd_apply] at h' ⊢
        split at h'
        · cases h'
          refine ⟨if_pos rfl, ?_⟩
          cases hf : s.foreign s.next with
          | false => rfl
          | true => exact absurd (i2 _ hf) (Nat.lt_irrefl _)
        · rw [if_neg (fun h => by subst h; exact hno _ _ h')]
          exact i3 _ _ _ h'
      · intro o1 o2 fd' t1 t2 h1 h2
        simp only [upd_apply] at h1 h2
        split at h1 <;> split at h2
        · exact ‹o1 = o›.trans ‹o2 = o›.symm
        · cases h1; exact absurd h2 (hno _ _)
        · cases h2; exact absurd h1 (hno _ _)
        · exact i4 _ _ _ _ _ h1 h2
      · intro o' d hp
        simp only [upd_apply] at hp ⊢
        split at hp
        · cases hp
        · rw [if_neg ‹_›]; exact i5 _ _ hp
    | otherOpen fd =>
      simp only [step] at hs
      split at hs <;> cases hs
      rename_i hc
      refine ⟨?_, ?_, ?_, i4, i5, i6, i7⟩
      · intro fd' t ht
        simp only [upd_apply] at ht
        split at ht
        · cases ht; exact Nat.lt_succ_self _
        · exact Nat.lt_succ_of_lt (i1 _ _ ht)
      · intro t ht
        simp only [upd_apply] at ht
        split at ht
        · rename_i h; subst h; exact Nat.lt_succ_self _
        · exact Nat.lt_succ_of_lt (i2 t ht)
      · intro o' fd' tok h'
        obtain ⟨h1, h2⟩ := i3 _ _ _ h'
        simp only [upd_apply]
        rw [if_neg (fun h => by subst h; rw [hc] at h1; cases h1), if_neg (fun h => by subst h; exact absurd (i1 _ _ h1) (Nat.lt_irrefl _))]
        exact ⟨h1, h2⟩
    | otherClose fd =>
      simp only [step] at hs
      split at hs
      · rename_i t ht
        split at hs <;> cases hs
        rename_i hf
        refine ⟨?_, i2, ?_, i4, i5, i6, i7⟩
        · intro fd' t ht
          simp only [upd_apply] at ht
          split at ht
          · cases ht
          · exact i1 _ _ ht
        · intro o' fd' tok h'
          obtain ⟨h1, h2⟩ := i3 _ _ _ h'
          simp only [upd_apply]
          rw [if_neg (fun h => by subst h; rw [ht] at h1; cases h1; rw [hf] at h2; cases h2)]
          exact ⟨h1, h2⟩
      · cases hs
    | setErrno e' =>
      cases hs
      exact ⟨i1, i2, i3, i4, i5, fun h => ha2 (by rw [show e' = .EINTR from h]), i7⟩
    | moveConstruct o p =>
      simp only [step] at hs
      split at hs
      · rename_i q ho hp
        split at hs <;> cases hs
        rename_i hidle
        have hop : o ≠ p := fun h => by rw [h, hp] at ho; cases ho
        have cases' : ∀ o' ob fd, upd (upd s.obj o (some q)) p (some { q with id := none }) o' = some ob → ob.id = some fd →
            (o' = o ∧ ob = q) ∨ (o' ≠ o ∧ o' ≠ p ∧ s.obj o' = some ob) := by
          intro o' ob fd h hid
          simp only [upd_apply] at h
          split at h
          · cases h; cases hid
          · split at h
            · cases h; exact Or.inl ⟨‹_›, rfl⟩
            · exact Or.inr ⟨‹_›, ‹_›, h⟩
        refine ⟨i1, i2, ?_, ?_, ?_, i6, i7⟩
        · intro o' fd' tok h'
          rcases cases' o' _ fd' h' rfl with ⟨_, rfl⟩ | ⟨_, _, h'⟩
          · exact i3 _ _ _ hp
          · exact i3 _ _ _ h'
        · intro o1 o2 fd' t1 t2 h1 h2
          rcases cases' o1 _ fd' h1 rfl with ⟨e1, rfl⟩ | ⟨_, n1, g1⟩ <;> rcases cases' o2 _ fd' h2 rfl with ⟨e2, e2'⟩ | ⟨_, n2, g2⟩
          · exact e1.trans e2.symm
          · exact absurd (i4 _ _ _ _ _ g2 hp) n2
          · subst e2'; exact absurd (i4 _ _ _ _ _ g1 hp) n1
          · exact i4 _ _ _ _ _ g1 g2
        · intro o' d hpc
          simp only [upd_apply] at hpc
          split at hpc
          · cases hpc
          · rcases i5 _ _ hpc with h | h
            · exact Or.inl h
            · right
              show upd _ _ _ _ = _
              rw [upd_other _ _ (fun hh => by rw [hh, hp] at h; cases h), upd_other _ _ ‹_›]
              exact h
      · cases hs
    | swap o p =>
      simp only [step] at hs
      split at hs
      · rename_i a b ho hp
        split at hs <;> cases hs
        rename_i hidle
        have cases' : ∀ o' ob, upd (upd s.obj o (some b)) p (some a) o' = some ob →
            (o' = p ∧ ob = a) ∨ (o' ≠ p ∧ o' = o ∧ ob = b) ∨ (o' ≠ o ∧ o' ≠ p ∧ s.obj o' = some ob) := by
          intro o' ob h
          simp only [upd_apply] at h
          split at h
          · cases h; exact Or.inl ⟨‹_›, rfl⟩
          · split at h
            · cases h; exact Or.inr (Or.inl ⟨‹_›, ‹_›, rfl⟩)
            · exact Or.inr (Or.inr ⟨‹_›, ‹_›, h⟩)
        refine ⟨i1, i2, ?_, ?_, ?_, i6, i7⟩
        · intro o' fd' tok h'
          rcases cases' o' _ h' with ⟨_, rfl⟩ | ⟨_, _, rfl⟩ | ⟨_, _, h'⟩
          · exact i3 _ _ _ ho
          · exact i3 _ _ _ hp
          · exact i3 _ _ _ h'
        · intro o1 o2 fd' t1 t2 h1 h2
          rcases cases' o1 _ h1 with ⟨e1, r1⟩ | ⟨m1, e1, r1⟩ | ⟨m1, n1, g1⟩ <;>
            rcases cases' o2 _ h2 with ⟨e2, r2⟩ | ⟨m2, e2, r2⟩ | ⟨m2, n2, g2⟩
          · exact e1.trans e2.symm
          · subst r1; subst r2
            exact absurd (e2.trans (i4 _ _ _ _ _ ho hp)) m2
          · subst r1; exact absurd (i4 _ _ _ _ _ g2 ho) m2
          · subst r1; subst r2
            exact absurd (e1.trans (i4 _ _ _ _ _ ho hp)) m1
          · exact e1.trans e2.symm
          · subst r1; exact absurd (i4 _ _ _ _ _ g2 hp) n2
          · subst r2; exact absurd (i4 _ _ _ _ _ g1 ho) m1
          · subst r2; exact absurd (i4 _ _ _ _ _ g1 hp) n1
          · exact i4 _ _ _ _ _ g1 g2
        · intro o' d hpc
          rcases i5 _ _ hpc with h | h
          · exact Or.inl h
          · right
            show upd _ _ _ _ = _
            rw [upd_other _ _ (fun hh => by rw [hh, hp] at h; cases h), upd_other _ _ (fun hh => by rw [hh, ho] at h; cases h)]
            exact h
      · cases hs
    | callClose o => exact absurd rfl (ha1 o)
    | destroy o =>
      simp only [step] at hs
      split at hs
      · rename_i ob ho
        split at hs
        · split at hs
          · cases hs
            refine ⟨i1, i2, ?_, ?_, ?_, i6, i7⟩
            · intro o' fd' tok h'
              simp only [upd_apply] at h'
              split at h'
              · cases h'
              · exact i3 _ _ _ h'
            · intro o1 o2 fd' t1 t2 h1 h2
              simp only [upd_apply] at h1 h2
              split at h1
              · cases h1
              · split at h2
                · cases h2
                · exact i4 _ _ _ _ _ h1 h2
            · intro o' d hpc
              rcases i5 _ _ hpc with h | h
              · exact Or.inl h
              · right
                simp only [upd_apply]
                split
                · rfl
                · exact h
          · cases hs
            refine ⟨i1, i2, i3, i4, ?_, i6, i7⟩
            intro o' d hpc
            simp only [upd_apply] at hpc
            split at hpc
            · cases hpc; exact Or.inl rfl
            · exact i5 _ _ hpc
        · cases hs
      · cases hs
    | sysClose o err =>
      simp only [step] at hs
      split at hs
      · rename_i fd tok d ho hp
        have hd : d = true := by
          rcases i5 _ _ hp with h | h
          · exact h
          · rw [ho] at h; cases h
        subst hd
        have htab := (i3 _ _ _ ho).1
        have fin : ∀ (e' : Errno), e' ≠ .EINTR → ∀ s'' : St,
            s'' = { s with table := upd s.table fd none, stolen := s.stolen || decide (tok ≠ tok), pc := upd s.pc o .idle,
                           obj := upd s.obj o none, errno := e' } → Own s'' := by
          intro e' he' s'' h
          subst h
          refine ⟨?_, i2, ?_, ?_, ?_, he', by simp [i7]⟩
          · intro fd' t ht
            simp only [upd_apply] at ht
            split at ht
            · cases ht
            · exact i1 _ _ ht
          · intro o' fd' tk h'
            simp only [upd_apply] at h' ⊢
            split at h'
            · cases h'
            · rename_i hne
              rw [if_neg (fun h => by subst h; exact hne (i4 _ _ _ _ _ h' ho))]
              exact i3 _ _ _ h'
          · intro o1 o2 fd' t1 t2 h1 h2
            simp only [upd_apply] at h1 h2
            split at h1
            · cases h1
            · split at h2
              · cases h2
              · exact i4 _ _ _ _ _ h1 h2
          · intro o' d' hpc
            simp only [upd_apply] at hpc ⊢
            split at hpc
            · cases hpc
            · rw [if_neg ‹_›]; exact i5 _ _ hpc
        split at hs
        · rename_i t ht
          rw [htab] at ht
          cases ht
          split at hs
          · rename_i hce
            exfalso
            cases hh : s.errno <;> simp_all [closeError]
          · cases hs
            exact fin s.errno i6 _ rfl
        · rename_i t e' ht
          rw [htab] at ht
          cases ht
          cases hs
          exact fin e' (fun h => ha3 o (by rw [h])) _ rfl
        · rename_i ht
          rw [htab] at ht
          cases ht
        · cases hs
      · cases hs

/-- **C50**: in every history of constructions, moves, swaps, move assignments and destructions in which `close()` is not called
explicitly and `EINTR` is not left in `errno`: every object owns its own open descriptor, no two objects own the same, and no
descriptor of anyone else has been closed by an object.
Missing: explicit `close()` and `EINTR`, `C50_violation_close_steals`, `C50_violation_eintr`. -/
theorem C50_ownership_partial {e : Errno} (he : e ≠ .EINTR) {s : St} (h : Raii e s) :
    (∀ o fd tok, s.obj o = some ⟨some fd, tok⟩ → s.table fd = some tok) ∧
    (∀ o o' fd tok tok', s.obj o = some ⟨some fd, tok⟩ → s.obj o' = some ⟨some fd, tok'⟩ → o = o') ∧
    s.stolen = false :=
  let i := own_raii he h
  ⟨fun o fd tok ho => (i.owns o fd tok ho).1, i.unique, i.clean⟩

/-- **C50** (destructor): in those histories the destructor calls `::close` once; after it the object does not exist, its descriptor is closed
and everything else is as before.
Missing: the histories in which a `close` fails or is interrupted, where it fails (`C50_violation_*`). -/
theorem C50_destructor_partial {e : Errno} (he : e ≠ .EINTR) {s s' : St} (h : Raii e s) {o fd tok : Nat} {d : Bool} {err : Option Errno}
    (ho : s.obj o = some ⟨some fd, tok⟩) (hp : s.pc o = .closing d) (hs : step s (.sysClose o err) = some s') :
    s'.obj o = none ∧ s'.pc o = .idle ∧ s'.table fd = none ∧
    (∀ fd', fd' ≠ fd → s'.table fd' = s.table fd') ∧ (∀ o', o' ≠ o → s'.obj o' = s.obj o') := by
  have i := own_raii he h
  have hd : d = true := by
    rcases i.pcs _ _ hp with h | h
    · exact h
    · rw [ho] at h; cases h
  subst hd
  have htab := (i.owns _ _ _ ho).1
  simp only [step, ho, hp, htab] at hs
  split at hs
  · split at hs
    · rename_i hce
      exfalso
      have := i.err
      cases hh : s.errno <;> simp_all [closeError]
    · cases hs
      refine ⟨by simp [St.leave], by simp [St.leave], by simp [St.leave, St.release], ?_, ?_⟩
      · intro fd' hne; simp [St.leave, St.release, hne]
      · intro o' hne; simp [St.leave, St.release, hne]
  · cases hs
    refine ⟨by simp [St.leave], by simp [St.leave], by simp [St.leave, St.release], ?_, ?_⟩
    · intro fd' hne; simp [St.leave, St.release, hne]
    · intro o' hne; simp [St.leave, St.release, hne]
  · cases ‹some _ = none›
  · cases ‹some _ = none›

/-- **C50** (moving), every history: move construction gives the descriptor to the new object and takes it from the old one, `swap` and move
assignment exchange the descriptors; no descriptor is opened or closed. -/
theorem C50_move {s s' : St} {o p : Nat} :
    (step s (.moveConstruct o p) = some s' → ∃ q, s.obj p = some q ∧ s'.obj o = some q ∧ s'.obj p = some ⟨none, q.tok⟩ ∧ s'.table = s.table) ∧
    (step s (.swap o p) = some s' → s'.obj o = s.obj p ∧ s'.obj p = s.obj o ∧ s'.table = s.table) := by
  constructor
  · intro hs
    simp only [step] at hs
    split at hs
    · rename_i q ho hp
      split at hs <;> cases hs
      have hop : o ≠ p := fun h => by rw [h, hp] at ho; cases ho
      exact ⟨q, hp, by show upd _ _ _ _ = _; rw [upd_other _ _ hop, upd_same], upd_same _ _ _, rfl⟩
    · cases hs
  · intro hs
    simp only [step] at hs
    split at hs
    · rename_i a b ho hp
      split at hs <;> cases hs
      refine ⟨?_, by rw [ho]; exact upd_same _ _ _, rfl⟩
      show upd _ _ _ _ = _
      by_cases hop : o = p
      · subst hop; rw [upd_same]; exact ho.symm.trans rfl
      · rw [upd_other _ _ hop, upd_same]; exact hp.symm
    · cases hs

/-- A moved-from or closed object: `close()` throws and nothing is closed. -/
theorem C50_close_invalid {s s' : St} {o tok : Nat} (ho : s.obj o = some ⟨none, tok⟩) (hs : step s (.callClose o) = some s') :
    s'.result o = some (.threw .logic) ∧ s'.table = s.table := by
  simp only [step, ho] at hs
  split at hs <;> cases hs
  exact ⟨upd_same _ _ _, rfl⟩

/-- **C50** (construction), every history: the new object owns the new descriptor, no other object does anything, and no call of it has returned yet. -/
theorem C50_construct {s s' : St} {o fd : Nat} (hs : step s (.construct o fd) = some s') :
    s.table fd = none ∧ (∃ tok, s'.obj o = some ⟨some fd, tok⟩ ∧ s'.table fd = some tok) ∧ s'.result o = none ∧ s'.pc o = .idle ∧
      ∀ p, p ≠ o → s'.obj p = s.obj p ∧ s'.result p = s.result p := by
  simp only [step] at hs
  split at hs
  · next h =>
    cases hs
    exact ⟨h.2, ⟨s.next, upd_same _ _ _, upd_same _ _ _⟩, upd_same _ _ _, upd_same _ _ _, fun p hp => ⟨upd_other _ _ hp, upd_other _ _ hp⟩⟩
  · cases hs

theorem C50_example :
    (run (St.init (.other 0)) [.construct 0 5, .construct 1 6, .otherOpen 7, .moveConstruct 2 0, .swap 1 2, .setErrno .EIO, .destroy 0,
        .destroy 1, .sysClose 1 none, .otherOpen 5]).map
      (fun s => ([s.obj 0, s.obj 1, s.obj 2], [s.table 5, s.table 6, s.table 7], s.stolen)) =
      some ([none, none, some ⟨some 6, 1⟩], [some 3, some 1, some 2], false) := by decide +kernel

end Verif.Socket
