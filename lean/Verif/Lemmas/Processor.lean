import Verif.Model.Processor

namespace Verif.Proc
open Verif

/-- The thread holds the mutex of the wait strategy. -/
def Pc.holds : Pc → Bool
  | .rSig .. | .rCur2 .. | .rAlert .. | .rEnter .. | .rCur3 .. | .rTOut .. | .rUnlock .. | .rUnwind .. | .sNotify .. | .sUnlock .. => true
  | _ => false

/-- The thread is about to notify, whatever happens. -/
def Pc.late : Pc → Bool
  | .sLock .. | .sNotify .. => true
  | _ => false

/-- The thread has stored the cursor or the alert and not yet notified. -/
def Pc.pend : Pc → Bool
  | .sExch .. | .sLock .. | .sNotify .. => true
  | _ => false

def Late (s : St) : Prop := ∃ u, (s.pc u).late = true
def Pend (s : St) : Prop := ∃ u, (s.pc u).pend = true

theorem Late.pend {s : St} (h : Late s) : Pend s := by
  obtain ⟨u, h⟩ := h
  refine ⟨u, ?_⟩
  revert h; cases s.pc u <;> simp [Pc.late, Pc.pend]

/-- Invariant of one thread. -/
def TInv (w : Strat) (s : St) : Pc → Prop
  | .rCur .. | .rLock .. | .rSig .. | .rWake .. | .rCur3 .. | .rTWake .. | .rTOut .. | .rUnlock .. | .rUnwind .. => w.base ≠ .spin
  | .rCur2 _ _ => w.base ≠ .spin ∧ (w.base = .lite → s.signal = true ∨ Late s)
  | .rAlert _ nx => w.base ≠ .spin ∧ (w.base = .lite → s.signal = true ∨ Late s) ∧ (nx ≤ s.cursor → Pend s)
  | .rEnter o nx | .rAsleep o nx =>
    w.base ≠ .spin ∧ (w.base = .lite → s.signal = true ∨ Late s) ∧ (nx ≤ s.cursor → Pend s) ∧ (s.alerted o = true → Pend s) ∧
      (s.told o = true → Late s)
  | _ => True

structure Inv (w : Strat) (s : St) : Prop where
  own : ∀ t, s.owner = some t ↔ (s.pc t).holds = true
  thr : ∀ t, TInv w s (s.pc t)
  told : ∀ o, s.told o = true → s.alerted o = true

theorem Inv.init (w : Strat) : Inv w .init :=
  ⟨by simp [St.init, Pc.holds], by simp [St.init, TInv], by simp [St.init]⟩

/-- A step of thread `t` that changes neither the cursor, the alerts, the signal flag nor the history: everything that has to be
checked is the new program counter. -/
theorem Inv.goto {w : Strat} {s : St} (h : Inv w s) {t : Nat} {p : Pc} {ow : Option Nat} {rn : Nat → Bool} {sq : Nat → Int}
    {lg : Nat → List Int}
    (hown : ∀ u, ow = some u ↔ (upd s.pc t p u).holds = true)
    (hl : (s.pc t).late = true → p.late = true) (hp : (s.pc t).pend = true → p.pend = true)
    (hn : Late s ∨ ¬ Late s → TInv w { s with pc := upd s.pc t p } p) :
    Inv w { s with owner := ow, running := rn, seq := sq, log := lg, pc := upd s.pc t p } := by
  have L : Late s → Late { s with owner := ow, running := rn, seq := sq, log := lg, pc := upd s.pc t p } := by
    rintro ⟨u, hu⟩
    refine ⟨u, ?_⟩
    simp only [upd_apply]
    split
    · next e => subst e; exact hl hu
    · exact hu
  have P : Pend s → Pend { s with owner := ow, running := rn, seq := sq, log := lg, pc := upd s.pc t p } := by
    rintro ⟨u, hu⟩
    refine ⟨u, ?_⟩
    simp only [upd_apply]
    split
    · next e => subst e; exact hp hu
    · exact hu
  refine ⟨hown, ?_, h.told⟩
  intro u
  by_cases hut : u = t
  · subst hut
    have := hn (Classical.em _)
    simp only [upd_same]
    cases p <;> simp only [TInv] at this ⊢ <;> exact this
  · have := h.thr u
    simp only [upd_other _ _ hut]
    revert this
    cases s.pc u <;> simp only [TInv, imp_self] <;> grind

/-- The mutex is not touched by a step between two points that both hold it or both do not. -/
theorem Inv.own_keep {w : Strat} {s : St} (h : Inv w s) {t : Nat} {p : Pc} (hp : p.holds = (s.pc t).holds) :
    ∀ u, s.owner = some u ↔ (upd s.pc t p u).holds = true := by
  intro u
  rw [h.own u, upd_apply]
  split
  · next e => subst e; rw [hp]
  · rfl

theorem Inv.own_take {w : Strat} {s : St} (h : Inv w s) {t : Nat} {p : Pc} (ho : s.owner = none) (hp : p.holds = true) :
    ∀ u, some t = some u ↔ (upd s.pc t p u).holds = true := by
  intro u
  have := h.own u
  rw [upd_apply]
  split
  · next e => subst e; simp [hp]
  · next e =>
    rw [ho] at this
    simp only [reduceCtorEq, false_iff] at this
    constructor
    · intro h2; injection h2 with h2; exact absurd h2.symm e
    · intro h2; exact absurd h2 this

theorem Inv.own_drop {w : Strat} {s : St} (h : Inv w s) {t : Nat} {p : Pc} (ht : (s.pc t).holds = true) (hp : p.holds = false) :
    ∀ u, (none : Option Nat) = some u ↔ (upd s.pc t p u).holds = true := by
  intro u
  have h1 := h.own u
  have h2 := (h.own t).mpr ht
  rw [upd_apply]
  split
  · simp [hp]
  · next e =>
    rw [h2] at h1
    simp only [reduceCtorEq, false_iff]
    intro h3
    have := h1.mpr h3
    injection this with this
    exact e this.symm

/-- Two threads do not hold the mutex at once. -/
theorem Inv.excl {w : Strat} {s : St} (h : Inv w s) {t u : Nat} (ht : (s.pc t).holds = true) (hu : (s.pc u).holds = true) : u = t := by
  have h1 := (h.own t).mpr ht
  have h2 := (h.own u).mpr hu
  rw [h1] at h2; injection h2 with h2; exact h2.symm

theorem late_upd {s s' : St} {t : Nat} {p : Pc} (hpc : s'.pc = upd s.pc t p) (hl : (s.pc t).late = true → p.late = true)
    (h : Late s) : Late s' := by
  obtain ⟨u, hu⟩ := h
  refine ⟨u, ?_⟩
  rw [hpc, upd_apply]
  split
  · next e => subst e; exact hl hu
  · exact hu

theorem pend_upd {s s' : St} {t : Nat} {p : Pc} (hpc : s'.pc = upd s.pc t p) (hl : (s.pc t).pend = true → p.pend = true)
    (h : Pend s) : Pend s' := by
  obtain ⟨u, hu⟩ := h
  refine ⟨u, ?_⟩
  rw [hpc, upd_apply]
  split
  · next e => subst e; exact hl hu
  · exact hu

theorem late_new {s : St} {t : Nat} {p : Pc} (hpc : s.pc t = p) (hp : p.late = true) : Late s := ⟨t, by rw [hpc]; exact hp⟩
theorem pend_new {s : St} {t : Nat} {p : Pc} (hpc : s.pc t = p) (hp : p.pend = true) : Pend s := ⟨t, by rw [hpc]; exact hp⟩

/-- Preservation for the other threads, with the facts they depend on. -/
theorem TInv.mono {w : Strat} {s s' : St} {p : Pc} (h : TInv w s p)
    (h1 : Late s → Late s') (h2 : Pend s → Pend s') (h3 : s.signal = true → s'.signal = true ∨ Late s')
    (h4 : s'.cursor ≤ s.cursor ∨ Pend s') (h5 : ∀ o, s'.alerted o = true → s.alerted o = true ∨ Pend s')
    (h6 : ∀ o, s'.told o = true → s.told o = true ∨ Late s') : TInv w s' p := by
  revert h
  cases p <;> simp only [TInv, imp_self] <;> grind

theorem tell_pc (s : St) (src : Option Nat) : (s.tell src).pc = s.pc := by cases src <;> rfl

theorem wakeAll_holds (f : Nat → Pc) (u : Nat) : (wakeAll f u).holds = (f u).holds := by
  simp only [wakeAll]
  cases f u <;> rfl

theorem tell_told {s : St} (h : ∀ o, s.told o = true → s.alerted o = true) {src : Option Nat} {t : Nat} {p : Pc} :
    ∀ o, ((s.tell src).goto t p).told o = true → ((s.tell src).goto t p).alerted o = true := by
  intro o
  cases src with
  | none => exact h o
  | some o' =>
    simp only [St.tell, St.goto, upd_apply]
    split
    · next e => subst e; exact id
    · exact h o

theorem Inv.step {w : Strat} {s s' : St} (a : Act) (h : Inv w s) (hs : step w s a = some s') : Inv w s' := by
  cases a with
  | callRun t o =>
    simp only [Proc.step] at hs
    split at hs
    · next e =>
      cases hs
      exact h.goto (h.own_keep (by simp [e, Pc.holds])) (by simp [e, Pc.late]) (by simp [e, Pc.pend]) (by simp [TInv])
    · cases hs
  | callHalt t o =>
    simp only [Proc.step] at hs
    split at hs
    · next e =>
      cases hs
      exact h.goto (h.own_keep (by simp [e, Pc.holds])) (by simp [e, Pc.late]) (by simp [e, Pc.pend]) (by simp [TInv])
    · cases hs
  | callPublish t x =>
    simp only [Proc.step] at hs
    split at hs
    · next e =>
      cases hs
      exact h.goto (h.own_keep (by simp [e, Pc.holds])) (by simp [e, Pc.late]) (by simp [e, Pc.pend]) (by simp [TInv])
    · cases hs
  | throwStd t =>
    simp only [Proc.step] at hs
    split at hs
    · next e =>
      cases hs
      exact h.goto (h.own_keep (by simp [e, Pc.holds])) (by simp [e, Pc.late]) (by simp [e, Pc.pend]) (by simp [TInv])
    · cases hs
  | throwOther t =>
    simp only [Proc.step] at hs
    split at hs
    · next e =>
      cases hs
      exact h.goto (h.own_keep (by simp [e, Pc.holds])) (by simp [e, Pc.late]) (by simp [e, Pc.pend]) (by simp [TInv])
    · cases hs
  | spurious t =>
    simp only [Proc.step] at hs
    split at hs
    · next e =>
      cases hs
      have := h.thr t
      rw [e] at this
      exact h.goto (h.own_keep (by simp [e, Pc.holds])) (by simp [e, Pc.late]) (by simp [e, Pc.pend]) (by simp only [TInv]; exact fun _ => this.1)
    · cases hs
  | timeout t =>
    simp only [Proc.step] at hs
    split at hs
    · next e =>
      split at hs
      · cases hs
        have := h.thr t
        rw [e] at this
        exact h.goto (h.own_keep (by simp [e, Pc.holds])) (by simp [e, Pc.late]) (by simp [e, Pc.pend]) (by simp only [TInv]; exact fun _ => this.1)
      · cases hs
    · cases hs
  | haltNoop t o =>
    simp only [Proc.step] at hs
    split at hs <;> cases hs
    refine ⟨h.own, fun u => ?_, h.told⟩
    exact (h.thr u).mono id id Or.inl (Or.inl (Int.le_refl _)) (fun _ => Or.inl) (fun _ => Or.inl)
  | step t v =>
    simp only [Proc.step, stepT] at hs
    have ht := h.thr t
    split at hs
    case h_1 => cases hs
    case h_2 o e =>
      split at hs <;> cases hs <;>
      exact h.goto (h.own_keep (by simp [e, Pc.holds])) (by simp [e, Pc.late]) (by simp [e, Pc.pend]) (by simp [TInv])
    case h_3 o e =>
      cases hs
      refine ⟨h.own_keep (by simp [e, Pc.holds]), ?_, ?_⟩
      · intro u
        by_cases hu : u = t
        · subst hu; simp only [St.goto, upd_same, TInv]
        · simp only [St.goto, upd_other _ _ hu]
          refine (h.thr u).mono (late_upd rfl (by simp [e, Pc.late])) (pend_upd rfl (by simp [e, Pc.pend])) Or.inl (Or.inl (Int.le_refl _)) ?_ ?_
          · intro o' h2; left; simp only [upd_apply] at h2; split at h2 <;> simp_all
          · intro o' h2; left; simp only [upd_apply] at h2; split at h2 <;> simp_all
      · intro o'; simp only [St.goto, upd_apply]; split
        · simp
        · exact h.told o'
    case h_4 o e =>
      cases hs
      exact h.goto (h.own_keep (by simp [e, Pc.holds])) (by simp [e, Pc.late]) (by simp [e, Pc.pend]) (by simp [TInv])
    case h_5 o nx e =>
      split at hs <;> cases hs
      · exact h.goto (h.own_keep (by simp [e, Pc.holds])) (by simp [e, Pc.late]) (by simp [e, Pc.pend]) (by simp [TInv])
      · refine h.goto (h.own_keep ?_) (by simp [e, Pc.late]) (by simp [e, Pc.pend]) ?_
        · simp only [firstPc]; (repeat' split) <;> simp [e, Pc.holds]
        · simp only [firstPc]; (repeat' split) <;> simp [TInv]; exact fun _ => by assumption
    case h_6 o nx e =>
      rw [e] at ht
      split at hs <;> cases hs <;>
      exact h.goto (h.own_keep (by simp [e, Pc.holds])) (by simp [e, Pc.late]) (by simp [e, Pc.pend]) (by simp only [TInv] at ht ⊢; grind)
    case h_7 o nx e =>
      rw [e] at ht
      split at hs <;> cases hs
      next ho =>
      refine h.goto (h.own_take ho ?_) (by simp [e, Pc.late]) (by simp [e, Pc.pend]) ?_
      · simp only [lockedPc]; split <;> simp [Pc.holds]
      · simp only [lockedPc]; split <;> simp only [TInv] at ht ⊢ <;> grind
    case h_8 o nx e =>
      rw [e] at ht
      cases hs
      refine ⟨h.own_keep (by simp [e, Pc.holds]), ?_, h.told⟩
      intro u
      by_cases hu : u = t
      · subst hu; simp only [St.goto, upd_same, TInv] at ht ⊢; exact ⟨ht, fun _ => Or.inl trivial⟩
      · simp only [St.goto, upd_other _ _ hu]
        refine (h.thr u).mono (late_upd rfl (by simp [e, Pc.late])) (pend_upd rfl (by simp [e, Pc.pend])) (fun _ => Or.inl rfl) (Or.inl (Int.le_refl _)) (fun _ => Or.inl) (fun _ => Or.inl)
    case h_9 o nx e =>
      rw [e] at ht
      split at hs <;> cases hs
      · refine h.goto (h.own_keep (by simp [e, Pc.holds])) (by simp [e, Pc.late]) (by simp [e, Pc.pend]) ?_
        intro _
        refine TInv.mono (s := s) ?_ (late_upd rfl (by simp [e, Pc.late])) (pend_upd rfl (by simp [e, Pc.pend])) Or.inl (Or.inl (Int.le_refl _)) (fun _ => Or.inl) (fun _ => Or.inl)
        simp only [TInv] at ht ⊢
        refine ⟨ht.1, ht.2, fun _ => by omega⟩
      · exact h.goto (h.own_keep (by simp [e, Pc.holds])) (by simp [e, Pc.late]) (by simp [e, Pc.pend]) (fun _ => ht.1)
    case h_10 o nx e =>
      rw [e] at ht
      split at hs <;> cases hs
      · exact h.goto (h.own_keep (by simp [e, Pc.holds])) (by simp [e, Pc.late]) (by simp [e, Pc.pend]) (fun _ => ht.1)
      · next ha =>
        refine h.goto (h.own_keep (by simp [e, Pc.holds])) (by simp [e, Pc.late]) (by simp [e, Pc.pend]) ?_
        intro _
        refine TInv.mono (s := s) ?_ (late_upd rfl (by simp [e, Pc.late])) (pend_upd rfl (by simp [e, Pc.pend])) Or.inl (Or.inl (Int.le_refl _)) (fun _ => Or.inl) (fun _ => Or.inl)
        simp only [TInv] at ht ⊢
        refine ⟨ht.1, ht.2.1, ht.2.2, fun h2 => absurd h2 ha, fun h2 => absurd (h.told _ h2) ha⟩
    case h_11 o nx e =>
      rw [e] at ht
      cases hs
      refine h.goto (h.own_drop (by simp [e, Pc.holds]) (by simp [Pc.holds])) (by simp [e, Pc.late]) (by simp [e, Pc.pend]) ?_
      intro _
      exact TInv.mono (s := s) (p := .rAsleep o nx) ht (late_upd rfl (by simp [e, Pc.late])) (pend_upd rfl (by simp [e, Pc.pend])) Or.inl (Or.inl (Int.le_refl _)) (fun _ => Or.inl) (fun _ => Or.inl)
    case h_12 => cases hs
    case h_13 o nx e =>
      rw [e] at ht
      split at hs <;> cases hs
      next ho =>
      refine h.goto (h.own_take ho ?_) (by simp [e, Pc.late]) (by simp [e, Pc.pend]) ?_
      · simp only [wokenPc]; split <;> simp [Pc.holds]
      · simp only [wokenPc]; split <;> simp only [TInv] at ht ⊢ <;> grind
    case h_14 o nx e =>
      rw [e] at ht
      split at hs <;> cases hs <;>
      exact h.goto (h.own_keep (by simp [e, Pc.holds])) (by simp [e, Pc.late]) (by simp [e, Pc.pend]) (fun _ => ht)
    case h_15 o nx e =>
      rw [e] at ht
      split at hs <;> cases hs
      next ho =>
      exact h.goto (h.own_take ho (by simp [Pc.holds])) (by simp [e, Pc.late]) (by simp [e, Pc.pend]) (fun _ => ht)
    case h_16 o nx e =>
      cases hs
      exact h.goto (h.own_drop (by simp [e, Pc.holds]) (by simp [Pc.holds])) (by simp [e, Pc.late]) (by simp [e, Pc.pend]) (by simp [TInv])
    case h_17 o nx e =>
      cases hs
      exact h.goto (h.own_keep (by simp [e, Pc.holds])) (by simp [e, Pc.late]) (by simp [e, Pc.pend]) (by simp [TInv])
    case h_18 o nx e =>
      cases hs
      exact h.goto (h.own_drop (by simp [e, Pc.holds]) (by simp [Pc.holds])) (by simp [e, Pc.late]) (by simp [e, Pc.pend]) (by simp [TInv])
    case h_19 o nx e =>
      cases hs
      exact h.goto (h.own_drop (by simp [e, Pc.holds]) (by simp [Pc.holds])) (by simp [e, Pc.late]) (by simp [e, Pc.pend]) (by simp [TInv])
    case h_20 o nx e =>
      split at hs <;> cases hs <;>
      exact h.goto (h.own_keep (by simp [e, Pc.holds])) (by simp [e, Pc.late]) (by simp [e, Pc.pend]) (by simp [TInv])
    case h_21 o nx e =>
      split at hs <;> cases hs <;>
      exact h.goto (h.own_keep (by simp [e, Pc.holds])) (by simp [e, Pc.late]) (by simp [e, Pc.pend]) (by simp [TInv])
    case h_22 o nx av e =>
      split at hs <;> cases hs <;>
      exact h.goto (h.own_keep (by simp [e, Pc.holds])) (by simp [e, Pc.late]) (by simp [e, Pc.pend]) (by simp [TInv])
    case h_23 o nx av e =>
      cases hs
      exact h.goto (h.own_keep (by simp [e, Pc.holds])) (by simp [e, Pc.late]) (by simp [e, Pc.pend]) (by simp [TInv])
    case h_24 o nx e =>
      split at hs <;> cases hs <;>
      exact h.goto (h.own_keep (by simp [e, Pc.holds])) (by simp [e, Pc.late]) (by simp [e, Pc.pend]) (by simp [TInv])
    case h_25 o e =>
      cases hs
      exact h.goto (h.own_keep (by simp [e, Pc.holds])) (by simp [e, Pc.late]) (by simp [e, Pc.pend]) (by simp [TInv])
    case h_26 x e =>
      cases hs
      refine ⟨h.own_keep (by simp [e, Pc.holds]), ?_, h.told⟩
      intro u
      by_cases hu : u = t
      · subst hu; simp only [St.goto, upd_same, TInv]
      · simp only [St.goto, upd_other _ _ hu]
        exact (h.thr u).mono (late_upd rfl (by simp [e, Pc.late])) (pend_upd rfl (by simp [e, Pc.pend])) Or.inl
          (Or.inr (pend_new (t := t) (upd_same ..) rfl)) (fun _ => Or.inl) (fun _ => Or.inl)
    case h_27 o e =>
      cases hs
      exact h.goto (h.own_keep (by simp [e, Pc.holds])) (by simp [e, Pc.late]) (by simp [e, Pc.pend]) (by simp [TInv])
    case h_28 o e =>
      cases hs
      refine ⟨h.own_keep (by simp [e, Pc.holds]), ?_, ?_⟩
      · intro u
        by_cases hu : u = t
        · subst hu; simp only [St.goto, upd_same, TInv]
        · simp only [St.goto, upd_other _ _ hu]
          exact (h.thr u).mono (late_upd rfl (by simp [e, Pc.late])) (pend_upd rfl (by simp [e, Pc.pend])) Or.inl
            (Or.inl (Int.le_refl _)) (fun _ _ => Or.inr (pend_new (t := t) (upd_same ..) rfl)) (fun _ => Or.inl)
      · intro o' ho'; simp only [St.goto, upd_apply]; split
        · rfl
        · exact h.told o' ho'
    case h_29 src e =>
      split at hs
      · cases hs
        refine ⟨?_, ?_, ?_⟩
        · have := h.own_keep (t := t) (p := .idle) (by simp [e, Pc.holds])
          cases src <;> exact this
        · intro u
          by_cases hu : u = t
          · subst hu; simp only [St.goto, upd_same, TInv]
          · simp only [St.goto, upd_other _ _ hu, tell_pc]
            have := h.thr u
            revert this
            cases s.pc u <;> simp only [TInv, imp_self] <;> grind
        · exact tell_told h.told
      · rename_i hlite
        split at hs
        · cases hs
          refine ⟨h.own_keep (by simp [e, Pc.holds]), ?_, h.told⟩
          have L : Late (St.goto { s with signal := false } t (.sLock src)) := late_new (t := t) (upd_same ..) rfl
          intro u
          by_cases hu : u = t
          · subst hu; simp only [St.goto, upd_same, TInv]
          · have := (h.thr u).mono (fun _ => L) (fun _ => L.pend) (fun _ => Or.inr L) (Or.inl (Int.le_refl _)) (fun _ => Or.inl) (fun _ => Or.inl)
            simpa only [St.goto, upd_other _ _ hu] using this
        · next hsg =>
          cases hs
          refine ⟨?_, ?_, ?_⟩
          · have := h.own_keep (t := t) (p := .idle) (by simp [e, Pc.holds])
            cases src <;> exact this
          · intro u
            by_cases hu : u = t
            · subst hu; simp only [St.goto, upd_same, TInv]
            · have L : Late s → Late ((s.tell src).goto t .idle) :=
                late_upd (t := t) (p := .idle) (by simp only [St.goto, tell_pc]) (by simp [e, Pc.late])
              simp only [St.goto, upd_other _ _ hu, tell_pc]
              have := h.thr u
              simp only [St.goto, tell_pc] at L
              revert this
              cases s.pc u <;> simp only [TInv, imp_self]
              · rintro ⟨h1, h2⟩
                exact ⟨h1, fun h3 => Or.inr (L ((h2 h3).resolve_left hsg))⟩
              · rintro ⟨h1, h2, -⟩
                have L2 := L ((h2 hlite).resolve_left hsg)
                exact ⟨h1, fun _ => Or.inr L2, fun _ => L2.pend⟩
              · rintro ⟨h1, h2, -⟩
                have L2 := L ((h2 hlite).resolve_left hsg)
                exact ⟨h1, fun _ => Or.inr L2, fun _ => L2.pend, fun _ => L2.pend, fun _ => L2⟩
              · rintro ⟨h1, h2, -⟩
                have L2 := L ((h2 hlite).resolve_left hsg)
                exact ⟨h1, fun _ => Or.inr L2, fun _ => L2.pend, fun _ => L2.pend, fun _ => L2⟩
          · exact tell_told h.told
      · cases hs
        exact h.goto (h.own_keep (by simp [e, Pc.holds])) (by simp [e, Pc.late]) (by simp [e, Pc.pend]) (by simp [TInv])
    case h_30 src e =>
      split at hs <;> cases hs
      next ho =>
      exact h.goto (h.own_take ho (by simp [Pc.holds])) (by simp [e, Pc.late]) (by simp [e, Pc.pend]) (by simp [TInv])
    case h_31 src e =>
      cases hs
      refine ⟨?_, ?_, ?_⟩
      · intro u
        have := h.own u
        have h2 : (St.tell { s with pc := wakeAll s.pc } src).owner = s.owner := by cases src <;> rfl
        simp only [St.goto, tell_pc, h2, upd_apply]
        split
        · next eu => subst eu; rw [this, e]; simp [Pc.holds]
        · rw [this, wakeAll_holds]
      · intro u
        by_cases hu : u = t
        · subst hu; simp only [St.goto, upd_same, TInv]
        · simp only [St.goto, upd_other _ _ hu, tell_pc]
          have := h.thr u
          have hx : (s.pc u).holds = false := by
            cases hh : (s.pc u).holds with
            | false => rfl
            | true => exact absurd (h.excl (t := t) (by simp [e, Pc.holds]) hh) hu
          simp only [wakeAll]
          revert this hx
          cases s.pc u <;> simp only [TInv, imp_self, Pc.holds, reduceCtorEq, false_imp_iff, implies_true]
          all_goals grind
      · exact tell_told (s := { s with pc := wakeAll s.pc }) h.told
    case h_32 src e =>
      cases hs
      exact h.goto (h.own_drop (by simp [e, Pc.holds]) (by simp [Pc.holds])) (by simp [e, Pc.late]) (by simp [e, Pc.pend]) (by simp [TInv])
    case h_33 o nx n e =>
      split at hs
      · split at hs
        · split at hs <;> cases hs
          · exact h.goto (h.own_keep (by simp [e, Pc.holds])) (by simp [e, Pc.late]) (by simp [e, Pc.pend]) (by simp [TInv])
          · exact h.goto (h.own_keep (by simp [e, Pc.holds])) (by simp [e, Pc.late]) (by simp [e, Pc.pend]) (fun _ => by assumption)
        · cases hs
          exact h.goto (h.own_keep (by simp [e, Pc.holds])) (by simp [e, Pc.late]) (by simp [e, Pc.pend]) (by simp [TInv])
      · cases hs
        exact h.goto (h.own_keep (by simp [e, Pc.holds])) (by simp [e, Pc.late]) (by simp [e, Pc.pend]) (by simp [TInv])

theorem Reach.inv {w : Strat} {s : St} (h : Reach w s) : Inv w s := by
  induction h with
  | init => exact Inv.init w
  | step a _ hs ih => exact ih.step a hs

/-- A step changes the program counter of another thread only by waking it. -/
theorem step_other {w : Strat} {s s' : St} {a : Act} (hs : step w s a = some s') {u : Nat} (hu : a.thread ≠ u) :
    s'.pc u = s.pc u ∨ (∃ o nx, s.pc u = .rAsleep o nx ∧ s'.pc u = .rWake o nx) := by
  cases a with
  | step t v =>
    simp only [Act.thread] at hu
    simp only [Proc.step, stepT] at hs
    split at hs
    case h_31 src e =>
      cases hs
      simp only [St.goto, tell_pc, upd_other _ _ (Ne.symm hu), wakeAll]
      cases h : s.pc u <;> simp
    all_goals
      (repeat' split at hs) <;> (try cases hs) <;> (left; simp only [St.goto, tell_pc, upd_other _ _ (Ne.symm hu)])
  | _ =>
    simp only [Act.thread] at hu
    simp only [Proc.step] at hs
    (repeat' split at hs) <;> (try cases hs) <;> (left; simp only [St.goto, upd_other _ _ (Ne.symm hu)])

/-- `halt` of `o` is complete: `running_` is down, the alert is up and signalled. -/
structure Halted (s : St) (o : Nat) : Prop where
  told : s.told o = true
  run : s.running o = false
  calm : ∀ t, s.pc t ≠ .rCas o ∧ s.pc t ≠ .rClear o

theorem calm_step {w : Strat} {s s' : St} {a : Act} {o : Nat} (hs : step w s a = some s') (ha : ∀ t, a ≠ .callRun t o)
    (h : ∀ t, s.pc t ≠ .rCas o ∧ s.pc t ≠ .rClear o) : ∀ t, s'.pc t ≠ .rCas o ∧ s'.pc t ≠ .rClear o := by
  intro u
  by_cases hu : a.thread = u
  · have hcu := h u
    cases a with
    | step t v =>
      simp only [Act.thread] at hu; subst hu
      simp only [Proc.step, stepT] at hs
      split at hs <;> (repeat' split at hs) <;> (try cases hs) <;>
        simp only [St.goto, tell_pc, upd_same, firstPc, lockedPc, wokenPc] <;> (repeat' split) <;> simp_all
    | callRun t o' =>
      simp only [Act.thread] at hu; subst hu
      simp only [Proc.step] at hs
      split at hs <;> cases hs
      simp only [St.goto, upd_same]
      refine ⟨?_, by simp⟩
      intro e; injection e with e; subst e; exact ha _ rfl
    | haltNoop t o' =>
      simp only [Proc.step] at hs
      split at hs <;> cases hs
      exact hcu
    | _ =>
      simp only [Act.thread] at hu; subst hu
      simp only [Proc.step] at hs
      (repeat' split at hs) <;> (try cases hs) <;> simp [St.goto]
  · rcases step_other hs hu with e | ⟨o', nx, -, e⟩
    · rw [e]; exact h u
    · rw [e]; simp

/-- `Halted` lasts as long as nobody calls `run()` again. -/
theorem Halted.step {w : Strat} {s s' : St} {a : Act} {o : Nat} (h : Halted s o) (hi : Inv w s) (hs : step w s a = some s')
    (ha : ∀ t, a ≠ .callRun t o) : Halted s' o := by
  have hc := calm_step hs ha h.calm
  have hal := hi.told o h.told
  obtain ⟨h1, h2, h3⟩ := h
  suffices s'.told o = true ∧ s'.running o = false from ⟨this.1, this.2, hc⟩
  cases a with
  | step t v =>
    simp only [Proc.step, stepT] at hs
    have h3 := h3 t
    split at hs
    case h_29 src e =>
      (repeat' split at hs) <;> cases hs <;> (try exact ⟨h1, h2⟩) <;>
      · cases src with
        | none => exact ⟨h1, h2⟩
        | some o' =>
          refine ⟨?_, h2⟩
          simp only [St.goto, St.tell, upd_apply]
          split
          · next e => subst e; exact hal
          · exact h1
    case h_31 src e =>
      cases hs
      cases src with
      | none => exact ⟨h1, h2⟩
      | some o' =>
        refine ⟨?_, h2⟩
        simp only [St.goto, St.tell, upd_apply]
        split
        · next e => subst e; exact hal
        · exact h1
    all_goals
      (repeat' split at hs) <;> (try cases hs) <;> simp only [St.goto, upd_apply] <;> grind
  | haltNoop t o' =>
    simp only [Proc.step] at hs
    split at hs <;> cases hs
    refine ⟨h1, ?_⟩
    simp only [upd_apply]; split
    · rfl
    · exact h2
  | _ =>
    simp only [Proc.step] at hs
    (repeat' split at hs) <;> (try cases hs) <;> exact ⟨h1, h2⟩

/-- Object a runner thread works for. -/
def Pc.obj : Pc → Option Nat
  | .rCas o | .rClear o | .rStart o | .rDown o => some o
  | .rTop o _ | .rCur o _ | .rLock o _ | .rSig o _ | .rCur2 o _ | .rAlert o _ | .rEnter o _ | .rAsleep o _ | .rWake o _ | .rCur3 o _
  | .rTWake o _ | .rTOut o _ | .rTNotify o _ | .rUnlock o _ | .rUnwind o _ | .rDep o _ | .rDepAlert o _ | .rBatch o _ _
  | .rHandle o _ _ | .rCaught o _ | .rPhase o _ _ => some o
  | _ => none

/-- Distance to the return of `run()` of a halted processor. -/
def rank : Pc → Nat × Nat
  | .rDown _ => (0, 1)
  | .rCaught .. => (0, 2)
  | .rTop .. => (0, 3)
  | .rUnwind .. => (0, 3)
  | .rStart .. => (0, 4)
  | .rTNotify .. => (0, 4)
  | .rTOut .. => (0, 5)
  | .rTWake .. => (0, 6)
  | .rBatch _ nx av => (0, 2 * (av + 1 - nx).toNat + 4)
  | .rHandle _ nx av => (0, 2 * (av - nx).toNat + 5)
  | .rDepAlert .. => (1, 0)
  | .rDep .. => (1, 1)
  | .rUnlock .. => (1, 2)
  | .rAlert .. => (1, 6)
  | .rCur2 .. => (1, 7)
  | .rSig .. => (1, 8)
  | .rCur3 .. => (1, 9)
  | .rLock .. => (1, 9)
  | .rCur .. => (1, 10)
  | .rWake .. => (1, 10)
  | .rAsleep .. => (1, 11)
  | .rEnter .. => (1, 12)
  | .rPhase _ _ n => (2, n)
  | _ => (0, 0)

/-- Lexicographic order. -/
def lt2 (a b : Nat × Nat) : Prop := a.1 < b.1 ∨ (a.1 = b.1 ∧ a.2 < b.2)

theorem lt2_wf : WellFounded lt2 := by
  have : lt2 = Prod.Lex (fun a b => a < b) (fun a b => a < b) := by
    funext a b
    apply propext
    simp only [lt2, Prod.lex_def]
  rw [this]
  exact (Prod.lex (Nat.lt_wfRel) (Nat.lt_wfRel)).wf

/-- A runner of a halted object gets closer to its return with every step it does. -/
theorem rank_own {w : Strat} {s s' : St} {a : Act} {o : Nat} (h : Halted s o) (hi : Inv w s) (hs : step w s a = some s') {t : Nat}
    (ht : a.thread = t) (ho : (s.pc t).obj = some o) :
    (s'.pc t = .idle ∨ (s'.pc t).obj = some o) ∧ lt2 (rank (s'.pc t)) (rank (s.pc t)) := by
  have hal := hi.told o h.told
  obtain ⟨h1, h2, h3⟩ := h
  have h3 := h3 t
  cases a with
  | step u v =>
    simp only [Act.thread] at ht; subst ht
    simp only [Proc.step, stepT] at hs
    split at hs <;> (rename_i e; rw [e] at ho; simp only [Pc.obj, Option.some.injEq, reduceCtorEq] at ho) <;> (try subst ho) <;>
      (repeat' split at hs) <;> (try cases hs) <;>
        simp only [St.goto, upd_same, firstPc, lockedPc, wokenPc] <;> (repeat' split) <;>
        simp only [e, rank, lt2, Pc.obj, reduceCtorEq] <;> grind
  | _ =>
    simp only [Act.thread] at ht; subst ht
    simp only [Proc.step] at hs
    (repeat' split at hs) <;> (try cases hs) <;> (rename_i e) <;> simp_all [Pc.obj, St.goto, rank, lt2] <;> grind

end Verif.Proc
