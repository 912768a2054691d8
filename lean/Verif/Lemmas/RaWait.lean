import Verif.Model.RaWait
import Verif.Lemmas.Memory

/-! The invariant of the blocking wait strategy on release/acquire memory. -/

namespace Verif.RaWait
open Verif Verif.RA

/-- The thread holds the mutex. -/
def Pc.Holds : Pc → Prop
  | .sNotify | .rSet _ _ | .rCheck _ _ | .rAlert _ _ | .rWait _ _ | .rAgain _ _ => True
  | _ => False

instance (p : Pc) : Decidable p.Holds := by cases p <;> simp only [Pc.Holds] <;> infer_instance

/-- Somebody is about to lock the mutex in order to notify. -/
def Pend (s : St) : Prop := ∃ u, s.pc u = .sLock

/-- The newest message of `l` satisfies `P`. -/
def Newest (s : St) (l : Nat) (P : Int → Prop) : Prop := ∀ g, (s.mem.msgs l).getLast? = some g → P g.val

/-- Messages whose store is followed by a notification. -/
def Cov (l : Nat) (v : Int) : Prop := l = cursor ∨ (3 ≤ l ∧ v ≠ 0)

/-- Whoever holds the mutex, or takes it next, knows message `i` of `l`. -/
def LockKnows (s : St) (l i : Nat) : Prop :=
  (∀ t, (s.pc t).Holds → i ≤ (s.mem.view t).a l) ∧ ∀ m, (s.mem.msgs mutex).getLast? = some m → m.val = 0 → i ≤ m.view.a l

def Asleep (s : St) : Pc → Prop
  | .rAlert _ nx => Pend s ∨ Newest s cursor (· < nx)
  | .rWait o nx => Pend s ∨ (Newest s cursor (· < nx) ∧ Newest s (alerted o) (· = 0))
  | .rAsleep o nx => (Pend s ∨ ∃ u, s.pc u = .sNotify) ∨ (Newest s cursor (· < nx) ∧ Newest s (alerted o) (· = 0))
  | _ => True

structure Inv (s : St) : Prop where
  vb : ∀ t l, (s.mem.view t).a l < (s.mem.msgs l).length
  mb : ∀ (l i : Nat) (g : Msg), (s.mem.msgs l)[i]? = some g → (∀ l', g.view.a l' < (s.mem.msgs l').length) ∧ g.view.a l ≤ i
  excl : ∀ t u, (s.pc t).Holds → (s.pc u).Holds → t = u
  locked : ∀ t, (s.pc t).Holds → Newest s mutex (· ≠ 0)
  know : ∀ (l i : Nat) (g : Msg), (s.mem.msgs l)[i]? = some g → Cov l g.val →
    (∃ u, s.pc u = .sLock ∧ i ≤ (s.mem.view u).a l) ∨ LockKnows s l i
  thr : ∀ t, Asleep s (s.pc t)

theorem Inv.init : Inv .init := by
  constructor
  · intro t l; simp [St.init, Mem.init, View.start]
  · intro l i g h
    simp only [St.init, Mem.init] at h
    rcases i with _ | i
    · simp at h; subst h; simp [View.start, St.init]
    · simp at h
  · intro t u h; simp [St.init, Pc.Holds] at h
  · intro t h; simp [St.init, Pc.Holds] at h
  · intro l i g h _
    simp only [St.init, Mem.init] at h
    rcases i with _ | i
    · exact .inr ⟨fun _ _ => Nat.zero_le _, fun _ _ _ => Nat.zero_le _⟩
    · simp at h
  · intro t; simp [St.init, Asleep]

theorem Asleep.congr {s s' : St} (hm : s'.mem.msgs = s.mem.msgs) (h1 : Pend s → Pend s') (h2 : ∀ u, s.pc u = .sNotify → s'.pc u = .sNotify)
    {p : Pc} (h : Asleep s p) : Asleep s' p := by
  have hn : ∀ l P, Newest s l P → Newest s' l P := by
    intro l P hN g hg; rw [hm] at hg; exact hN g hg
  cases p <;> simp only [Asleep] at h ⊢
  · exact h.imp h1 (hn _ _)
  · exact h.imp h1 (fun h => ⟨hn _ _ h.1, hn _ _ h.2⟩)
  · exact h.imp (fun h => h.imp h1 (fun ⟨u, hu⟩ => ⟨u, h2 u hu⟩)) (fun h => ⟨hn _ _ h.1, hn _ _ h.2⟩)

/-- Views grow. -/
theorem inv_view {s : St} (hi : Inv s) {m : Mem Unit} (hm : m.msgs = s.mem.msgs) (hv : ∀ u l, (s.mem.view u).a l ≤ (m.view u).a l)
    (hb : ∀ u l, (m.view u).a l < (s.mem.msgs l).length) : Inv ⟨m, s.pc⟩ := by
  constructor
  · intro t l; show _ < (m.msgs l).length; rw [hm]; exact hb t l
  · intro l i g h
    have h : (m.msgs l)[i]? = some g := h
    show (∀ l', _ < (m.msgs l').length) ∧ _
    rw [hm] at h ⊢; exact hi.mb l i g h
  · exact hi.excl
  · intro t ht g hg
    have hg : (m.msgs mutex).getLast? = some g := hg
    rw [hm] at hg; exact hi.locked t ht g hg
  · intro l i g h hc
    have h : (m.msgs l)[i]? = some g := h
    rw [hm] at h
    rcases hi.know l i g h hc with ⟨u, hu, hk⟩ | ⟨h1, h2⟩
    · exact .inl ⟨u, hu, Nat.le_trans hk (hv u l)⟩
    · refine .inr ⟨fun t ht => Nat.le_trans (h1 t ht) (hv t l), fun m' hm' => ?_⟩
      have hm' : (m.msgs mutex).getLast? = some m' := hm'
      rw [hm] at hm'; exact h2 m' hm'
  · intro t; exact Asleep.congr (s := s) (s' := ⟨m, s.pc⟩) hm id (fun _ h => h) (hi.thr t)

/-- Only the program counter of `t` changes. -/
theorem inv_pc {s : St} (hi : Inv s) {t : Nat} {p : Pc} (hp : p.Holds → (s.pc t).Holds) (h1 : s.pc t ≠ .sLock) (h2 : s.pc t ≠ .sNotify)
    (ha : Asleep ⟨s.mem, upd s.pc t p⟩ p) : Inv ⟨s.mem, upd s.pc t p⟩ := by
  have hh : ∀ u, (upd s.pc t p u).Holds → (s.pc u).Holds := by
    intro u; rw [upd_apply]; split
    · next e => subst e; exact hp
    · exact id
  have hu : ∀ u q, (q = .sLock ∨ q = .sNotify) → s.pc u = q → upd s.pc t p u = q := by
    intro u q hq he
    rw [upd_other]
    · exact he
    · rintro rfl; rcases hq with rfl | rfl
      · exact h1 he
      · exact h2 he
  constructor
  · exact hi.vb
  · exact hi.mb
  · exact fun t u a b => hi.excl t u (hh t a) (hh u b)
  · exact fun t a => hi.locked t (hh t a)
  · intro l i g h hc
    rcases hi.know l i g h hc with ⟨u, hu', hk⟩ | ⟨h1, h2⟩
    · exact .inl ⟨u, hu u _ (.inl rfl) hu', hk⟩
    · exact .inr ⟨fun t ht => h1 t (hh t ht), h2⟩
  · intro u
    show Asleep _ (upd s.pc t p u)
    rw [upd_apply]; split
    · exact ha
    · exact Asleep.congr (s := s) (s' := ⟨s.mem, upd s.pc t p⟩) rfl (fun ⟨v, hv⟩ => ⟨v, hu v _ (.inl rfl) hv⟩) (fun v hv => hu v _ (.inr rfl) hv) (hi.thr u)

theorem load_inv {s : St} (hi : Inv s) {t l i : Nat} {v : Int} {m : Mem Unit} (h : s.mem.load t l i = some (v, m)) : Inv ⟨m, s.pc⟩ := by
  obtain ⟨g, hg, rfl, hle, rfl⟩ := Mem.load_some h
  have hlen : i < (s.mem.msgs l).length := (List.getElem?_eq_some_iff.mp hg).1
  refine inv_view hi rfl ?_ ?_
  · intro u l'
    show _ ≤ (upd s.mem.view t _ u).a l'
    rw [upd_apply]; split
    · next e =>
      subst e
      refine Nat.le_trans ?_ (View.see_a_le ((s.mem.view u).join g.view) l i l')
      exact Nat.le_max_left _ _
    · exact Nat.le_refl _
  · intro u l'
    show (upd s.mem.view t _ u).a l' < _
    rw [upd_apply]; split
    · have h1 := hi.vb t l'
      have h2 := (hi.mb l i g hg).1 l'
      rw [View.see_a]; split
      · next e => subst e; simp only [View.join_a]; omega
      · simp only [View.join_a]; omega
    · exact hi.vb u l'

/-- Reading an old message of a covered variable while holding the mutex: somebody is about to notify. -/
theorem old_pend {s : St} (hi : Inv s) {t l i : Nat} {g h : Msg} (hh : (s.pc t).Holds) (hg : (s.mem.msgs l)[i]? = some g)
    (hle : (s.mem.view t).a l ≤ i) (hl : (s.mem.msgs l).getLast? = some h) (hc : Cov l h.val) (hne : g.val ≠ h.val) : Pend s := by
  have hlen : i < (s.mem.msgs l).length := (List.getElem?_eq_some_iff.mp hg).1
  have hlast : (s.mem.msgs l)[(s.mem.msgs l).length - 1]? = some h := by rw [← List.getLast?_eq_getElem?]; exact hl
  have hi' : i < (s.mem.msgs l).length - 1 := by
    rcases Nat.lt_or_ge i ((s.mem.msgs l).length - 1) with h' | h'
    · exact h'
    · have : i = (s.mem.msgs l).length - 1 := by omega
      rw [← this, hg] at hlast
      cases hlast; exact absurd rfl hne
  rcases hi.know l _ h hlast hc with ⟨u, hu, _⟩ | hk
  · exact ⟨u, hu⟩
  · have := hk.1 t hh; omega

theorem getLast?_append_one {α : Type} (l : List α) (a : α) : (l ++ [a]).getLast? = some a := by simp

/-- The mutex is released. -/
theorem unlock_inv {s : St} (hi : Inv s) {t : Nat} {p : Pc} (hh : (s.pc t).Holds) (hp : ¬ p.Holds)
    (hn : s.pc t = .sNotify → ∀ u o nx, s.pc u ≠ .rAsleep o nx) (ha : Asleep s p ∨ p = .idle) (hpn : s.pc t = .sNotify → p = .idle) :
    Inv (unlock s t p) := by
  have hl : ∀ l, l ≠ mutex → (unlock s t p).mem.msgs l = s.mem.msgs l := by
    intro l h; simp only [unlock, Mem.store]; exact upd_other _ _ h
  have hm : (unlock s t p).mem.msgs mutex = s.mem.msgs mutex ++ [⟨0, (s.mem.view t).see mutex (s.mem.msgs mutex).length⟩] := by
    simp only [unlock, Mem.store, upd_same]
  have hlen : ∀ l, (s.mem.msgs l).length ≤ ((unlock s t p).mem.msgs l).length := by
    intro l
    by_cases e : l = mutex
    · subst e; rw [hm]; simp
    · rw [hl l e]; exact Nat.le_refl _
  have hva : ∀ l, ((s.mem.view t).see mutex (s.mem.msgs mutex).length).a l < ((unlock s t p).mem.msgs l).length := by
    intro l
    have := hi.vb t l
    rw [View.see_a]; split
    · next e => subst e; rw [hm]; simp; omega
    · exact Nat.lt_of_lt_of_le this (hlen l)
  have hge : ∀ l, (s.mem.view t).a l ≤ ((s.mem.view t).see mutex (s.mem.msgs mutex).length).a l := fun l => View.see_a_le _ _ _ _
  have hpc : ∀ u, (unlock s t p).pc u = upd s.pc t p u := fun u => rfl
  have hview : ∀ u, u ≠ t → (unlock s t p).mem.view u = s.mem.view u := by
    intro u h; simp only [unlock, Mem.store]; exact upd_other _ _ h
  have hno : ∀ u, ¬ ((unlock s t p).pc u).Holds := by
    intro u; rw [hpc, upd_apply]; split
    · exact hp
    · next e => intro h; exact e (hi.excl u t h hh)
  have hpl : Pend s → Pend (unlock s t p) := by
    rintro ⟨u, hu⟩
    refine ⟨u, ?_⟩
    rw [hpc, upd_other]
    · exact hu
    · rintro rfl; rw [hu] at hh; exact hh
  constructor
  · intro u l
    by_cases e : u = t
    · subst e; simp only [unlock, Mem.store, upd_same]; exact hva l
    · rw [hview u e]; exact Nat.lt_of_lt_of_le (hi.vb u l) (hlen l)
  · intro l i g h
    by_cases e : l = mutex
    · subst e; rw [hm] at h
      rcases append_get h with ⟨h, _⟩ | ⟨hii, rfl⟩
      · exact ⟨fun l' => Nat.lt_of_lt_of_le ((hi.mb _ i g h).1 l') (hlen l'), (hi.mb _ i g h).2⟩
      · refine ⟨hva, ?_⟩
        have := hva mutex; rw [hm] at this
        have h2 : ((s.mem.msgs mutex) ++ [(⟨0, (s.mem.view t).see mutex (s.mem.msgs mutex).length⟩ : Msg)]).length = i + 1 := by
          rw [hii]; simp
        rw [h2] at this
        show ((s.mem.view t).see mutex (s.mem.msgs mutex).length).a mutex ≤ i
        omega
    · rw [hl l e] at h
      exact ⟨fun l' => Nat.lt_of_lt_of_le ((hi.mb l i g h).1 l') (hlen l'), (hi.mb l i g h).2⟩
  · intro u v h; exact absurd h (hno u)
  · intro u h; exact absurd h (hno u)
  · intro l i g h hc
    have e : l ≠ mutex := by rintro rfl; rcases hc with hc | hc <;> simp [mutex, cursor] at hc
    rw [hl l e] at h
    rcases hi.know l i g h hc with ⟨u, hu, hk⟩ | ⟨h1, -⟩
    · have ut : u ≠ t := by rintro rfl; rw [hu] at hh; exact hh
      exact .inl ⟨u, by rw [hpc, upd_other _ _ ut]; exact hu, by rw [hview u ut]; exact hk⟩
    · refine .inr ⟨fun u hu => absurd hu (hno u), fun m hm' _ => ?_⟩
      rw [hm, getLast?_append_one] at hm'
      cases hm'
      exact Nat.le_trans (h1 t hh) (hge l)
  · have hN : ∀ l P, l ≠ mutex → Newest s l P → Newest (unlock s t p) l P := by
      intro l P e h g hg; rw [hl l e] at hg; exact h g hg
    have key : ∀ q : Pc, Asleep s q → (s.pc t = .sNotify → ∀ o nx, q ≠ .rAsleep o nx) → ¬ q.Holds → Asleep (unlock s t p) q := by
      intro q hq hq' hqh
      cases q <;> simp only [Asleep, Pc.Holds, not_true_eq_false, not_false_eq_true] at hq hqh ⊢
      rename_i o nx
      refine hq.imp (fun h => ?_) (fun h => ⟨hN _ _ (by decide) h.1, hN _ _ (by simp [alerted, mutex]) h.2⟩)
      rcases h with h | ⟨u, hu⟩
      · exact .inl (hpl h)
      · refine .inr ⟨u, ?_⟩
        rw [hpc, upd_other]
        · exact hu
        · rintro rfl; exact hq' hu o nx rfl
    intro u
    rw [hpc, upd_apply]; split
    · rcases ha with ha | ha
      · refine key p ha (fun e o nx => ?_) hp
        rw [hpn e]; nofun
      · subst ha; trivial
    · next e =>
      exact key _ (hi.thr u) (fun e' o nx => hn e' u o nx) (fun h => e (hi.excl u t h hh))

/-- The mutex is taken. -/
theorem lock_inv {s s' : St} (hi : Inv s) {t : Nat} {p : Pc} (hp : p.Holds) (ha : ∀ s, Asleep s p) (hsn : s.pc t = .sLock → p = .sNotify)
    (hnn : s.pc t ≠ .sNotify) (hs : lock s t p = some s') : Inv s' := by
  unfold lock Mem.rmw at hs
  cases hlast : s.mem.last mutex with
  | none => rw [hlast] at hs; simp at hs
  | some g0 =>
  rw [hlast] at hs
  simp only at hs
  split at hs
  · next h0 =>
    cases hs
    have hg0 : (s.mem.msgs mutex).getLast? = some g0 := hlast
    have hg0m : (s.mem.msgs mutex)[(s.mem.msgs mutex).length - 1]? = some g0 := by rw [← List.getLast?_eq_getElem?]; exact hg0
    have hno : ∀ u, ¬ (s.pc u).Holds := fun u hu => hi.locked u hu g0 hg0 h0
    generalize hu0 : ((s.mem.view t).join g0.view).see mutex (s.mem.msgs mutex).length = u0
    generalize hs' : (⟨{ s.mem with msgs := upd s.mem.msgs mutex (s.mem.msgs mutex ++ [⟨1, u0⟩]), view := upd s.mem.view t u0 }, upd s.pc t p⟩ : St) = s'
    have hl : ∀ l, l ≠ mutex → s'.mem.msgs l = s.mem.msgs l := by
      intro l h; rw [← hs']; exact upd_other _ _ h
    have hm : s'.mem.msgs mutex = s.mem.msgs mutex ++ [⟨1, u0⟩] := by rw [← hs']; exact upd_same s.mem.msgs mutex _
    have hlen : ∀ l, (s.mem.msgs l).length ≤ (s'.mem.msgs l).length := by
      intro l
      by_cases e : l = mutex
      · subst e; rw [hm]; simp
      · rw [hl l e]; exact Nat.le_refl _
    have hva : ∀ l, u0.a l < (s'.mem.msgs l).length := by
      intro l
      have h1 := hi.vb t l
      have h2 := (hi.mb _ _ _ hg0m).1 l
      rw [← hu0, View.see_a]; split
      · next e => subst e; rw [hm]; simp; omega
      · simp only [View.join_a]; have := hlen l; omega
    have hge : ∀ l, (s.mem.view t).a l ≤ u0.a l := by
      intro l; rw [← hu0]
      refine Nat.le_trans ?_ (View.see_a_le _ _ _ _)
      exact Nat.le_max_left _ _
    have hge' : ∀ l, g0.view.a l ≤ u0.a l := by
      intro l; rw [← hu0]
      refine Nat.le_trans ?_ (View.see_a_le _ _ _ _)
      exact Nat.le_max_right _ _
    have hpc : ∀ u, s'.pc u = upd s.pc t p u := by intro u; rw [← hs']
    have hview : ∀ u, u ≠ t → s'.mem.view u = s.mem.view u := by
      intro u h; rw [← hs']; exact upd_other _ _ h
    have hvt : s'.mem.view t = u0 := by rw [← hs']; exact upd_same _ _ _
    have hhold : ∀ u, (s'.pc u).Holds → u = t := by
      intro u h; rw [hpc, upd_apply] at h; split at h
      · assumption
      · exact absurd h (hno u)
    constructor
    · intro u l
      by_cases e : u = t
      · subst e; rw [hvt]; exact hva l
      · rw [hview u e]; exact Nat.lt_of_lt_of_le (hi.vb u l) (hlen l)
    · intro l i g h
      by_cases e : l = mutex
      · subst e; rw [hm] at h
        rcases append_get h with ⟨h, _⟩ | ⟨hii, rfl⟩
        · exact ⟨fun l' => Nat.lt_of_lt_of_le ((hi.mb _ i g h).1 l') (hlen l'), (hi.mb _ i g h).2⟩
        · refine ⟨hva, ?_⟩
          have := hva mutex; rw [hm] at this
          have h2 : (s.mem.msgs mutex ++ [(⟨1, u0⟩ : Msg)]).length = i + 1 := by rw [hii]; simp
          rw [h2] at this
          show u0.a mutex ≤ i
          omega
      · rw [hl l e] at h
        exact ⟨fun l' => Nat.lt_of_lt_of_le ((hi.mb l i g h).1 l') (hlen l'), (hi.mb l i g h).2⟩
    · intro u v h1 h2; rw [hhold u h1, hhold v h2]
    · intro u _ g hg
      rw [hm, getLast?_append_one] at hg; cases hg; exact Int.one_ne_zero
    · intro l i g h hc
      have e : l ≠ mutex := by rintro rfl; rcases hc with hc | hc <;> simp [mutex, cursor] at hc
      rw [hl l e] at h
      have fin : i ≤ u0.a l → LockKnows s' l i := by
        intro hle
        refine ⟨fun u hu => ?_, fun m hm' h0' => ?_⟩
        · rw [hhold u hu, hvt]; exact hle
        · rw [hm, getLast?_append_one] at hm'; cases hm'; cases h0'
      rcases hi.know l i g h hc with ⟨u, hu, hk⟩ | ⟨-, h2⟩
      · by_cases ut : u = t
        · subst ut; exact .inr (fin (Nat.le_trans hk (hge l)))
        · exact .inl ⟨u, by rw [hpc, upd_other _ _ ut]; exact hu, by rw [hview u ut]; exact hk⟩
      · exact .inr (fin (Nat.le_trans (h2 g0 hg0 h0) (hge' l)))
    · have hN : ∀ l P, l ≠ mutex → Newest s l P → Newest s' l P := by
        intro l P e h g hg; rw [hl l e] at hg; exact h g hg
      intro u
      rw [hpc, upd_apply]; split
      · exact ha s'
      · have h1 := hi.thr u
        have h2 := hno u
        generalize s.pc u = q at h1 h2
        cases q <;> simp only [Asleep, Pc.Holds, not_true_eq_false, not_false_eq_true] at h1 h2 ⊢
        refine h1.imp (fun h => ?_) (fun h => ⟨hN _ _ (by decide) h.1, hN _ _ (by simp [alerted, mutex]) h.2⟩)
        rcases h with ⟨v, hv⟩ | ⟨v, hv⟩
        · by_cases e : v = t
          · subst e; exact .inr ⟨v, by rw [hpc, upd_same]; exact hsn hv⟩
          · exact .inl ⟨v, by rw [hpc, upd_other _ _ e]; exact hv⟩
        · exact .inr ⟨v, by rw [hpc, upd_other]; · exact hv
                            rintro rfl; exact hnn hv⟩
  · cases hs

/-- The cursor or an alert flag is stored by an idle thread, which then signals unless an alert is cleared. -/
theorem store_inv {s : St} (hi : Inv s) {t l : Nat} {v : Int} {p : Pc} (ht : s.pc t = .idle) (hl : l = cursor ∨ 3 ≤ l)
    (hp : p = .sLock ∨ (p = .idle ∧ 3 ≤ l ∧ v = 0)) : Inv ⟨s.mem.store t l v, upd s.pc t p⟩ := by
  have hlm : l ≠ mutex := by rcases hl with rfl | h <;> simp only [mutex, cursor] <;> omega
  generalize hu0 : (s.mem.view t).see l (s.mem.msgs l).length = u0
  generalize hs' : (⟨s.mem.store t l v, upd s.pc t p⟩ : St) = s'
  have ho : ∀ l', l' ≠ l → s'.mem.msgs l' = s.mem.msgs l' := by
    intro l' h; rw [← hs']; exact upd_other _ _ h
  have hm : s'.mem.msgs l = s.mem.msgs l ++ [⟨v, u0⟩] := by rw [← hs', ← hu0]; exact upd_same _ _ _
  have hlen : ∀ l, (s.mem.msgs l).length ≤ (s'.mem.msgs l).length := by
    intro l'
    by_cases e : l' = l
    · subst e; rw [hm]; simp
    · rw [ho l' e]; exact Nat.le_refl _
  have hva : ∀ l, u0.a l < (s'.mem.msgs l).length := by
    intro l'
    have h1 := hi.vb t l'
    rw [← hu0, View.see_a]; split
    · next e => subst e; rw [hm]; simp; omega
    · exact Nat.lt_of_lt_of_le h1 (hlen l')
  have hge : ∀ l', (s.mem.view t).a l' ≤ u0.a l' := by
    intro l'; rw [← hu0]; exact View.see_a_le _ _ _ _
  have hpc : ∀ u, s'.pc u = upd s.pc t p u := by intro u; rw [← hs']
  have hview : ∀ u, u ≠ t → s'.mem.view u = s.mem.view u := by
    intro u h; rw [← hs']; exact upd_other _ _ h
  have hvt : s'.mem.view t = u0 := by rw [← hs', ← hu0]; exact upd_same _ _ _
  have hph : ¬ p.Holds := by rcases hp with rfl | ⟨rfl, _⟩ <;> exact id
  have hhold : ∀ u, (s'.pc u).Holds → u ≠ t ∧ (s.pc u).Holds := by
    intro u h; rw [hpc, upd_apply] at h; split at h
    · exact absurd h hph
    · exact ⟨by assumption, h⟩
  have hmut : s'.mem.msgs mutex = s.mem.msgs mutex := ho _ (Ne.symm hlm)
  constructor
  · intro u l'
    by_cases e : u = t
    · subst e; rw [hvt]; exact hva l'
    · rw [hview u e]; exact Nat.lt_of_lt_of_le (hi.vb u l') (hlen l')
  · intro l' i g h
    by_cases e : l' = l
    · subst e; rw [hm] at h
      rcases append_get h with ⟨h, _⟩ | ⟨hii, rfl⟩
      · exact ⟨fun l' => Nat.lt_of_lt_of_le ((hi.mb _ i g h).1 l') (hlen l'), (hi.mb _ i g h).2⟩
      · refine ⟨hva, ?_⟩
        have := hva l'; rw [hm] at this
        have h2 : (s.mem.msgs l' ++ [(⟨v, u0⟩ : Msg)]).length = i + 1 := by rw [hii]; simp
        rw [h2] at this
        show u0.a l' ≤ i
        omega
    · rw [ho l' e] at h
      exact ⟨fun l'' => Nat.lt_of_lt_of_le ((hi.mb l' i g h).1 l'') (hlen l''), (hi.mb l' i g h).2⟩
  · intro a b h1 h2; exact hi.excl a b (hhold a h1).2 (hhold b h2).2
  · intro u hu g hg
    rw [hmut] at hg; exact hi.locked u (hhold u hu).2 g hg
  · intro l' i g h hc
    have old : ∀ h : (s.mem.msgs l')[i]? = some g, (∃ u, s'.pc u = .sLock ∧ i ≤ (s'.mem.view u).a l') ∨ LockKnows s' l' i := by
      intro h
      rcases hi.know l' i g h hc with ⟨u, hu, hk⟩ | ⟨h1, h2⟩
      · have ut : u ≠ t := by rintro rfl; rw [hu] at ht; cases ht
        exact .inl ⟨u, by rw [hpc, upd_other _ _ ut]; exact hu, by rw [hview u ut]; exact hk⟩
      · refine .inr ⟨fun u hu => ?_, fun m hm' => ?_⟩
        · rw [hview u (hhold u hu).1]; exact h1 u (hhold u hu).2
        · rw [hmut] at hm'; exact h2 m hm'
    by_cases e : l' = l
    · subst e
      have h' := h
      rw [hm] at h
      rcases append_get h with ⟨h, _⟩ | ⟨hii, rfl⟩
      · exact old h
      · rcases hp with rfl | ⟨rfl, h3, h4⟩
        · refine .inl ⟨t, by rw [hpc, upd_same], ?_⟩
          rw [hvt, ← hu0, View.see_a_same, hii]; exact Nat.le_max_right _ _
        · rcases hc with hc | hc
          · rw [hc] at h3; simp [cursor] at h3
          · exact absurd h4 hc.2
    · rw [ho l' e] at h; exact old h
  · have hpl : Pend s → Pend s' := by
      rintro ⟨u, hu⟩
      refine ⟨u, ?_⟩
      rw [hpc, upd_other]
      · exact hu
      · rintro rfl; rw [hu] at ht; cases ht
    have hnl : ∀ u, s.pc u = .sNotify → s'.pc u = .sNotify := by
      intro u hu
      rw [hpc, upd_other]
      · exact hu
      · rintro rfl; rw [hu] at ht; cases ht
    intro u
    rw [hpc, upd_apply]; split
    · rcases hp with rfl | ⟨rfl, _⟩ <;> trivial
    · have h1 := hi.thr u
      generalize s.pc u = q at h1
      rcases hp with rfl | ⟨rfl, h3, h4⟩
      · have : Pend s' := ⟨t, by rw [hpc, upd_same]⟩
        cases q <;> simp only [Asleep]
        · exact .inl this
        · exact .inl this
        · exact .inl (.inl this)
      · have hlc : l ≠ cursor := by rintro rfl; simp [cursor] at h3
        have hc : ∀ P, Newest s cursor P → Newest s' cursor P := by
          intro P h g hg; rw [ho _ (Ne.symm hlc)] at hg; exact h g hg
        have hal : ∀ o, Newest s (alerted o) (· = 0) → Newest s' (alerted o) (· = 0) := by
          intro o h g hg
          by_cases e : alerted o = l
          · rw [e, hm, getLast?_append_one] at hg; cases hg; exact h4
          · rw [ho _ e] at hg; exact h g hg
        cases q <;> simp only [Asleep] at h1 ⊢
        · exact h1.imp hpl (hc _)
        · exact h1.imp hpl (fun h => ⟨hc _ h.1, hal _ h.2⟩)
        · exact h1.imp (fun h => h.imp hpl (fun ⟨v, hv⟩ => ⟨v, hnl v hv⟩)) (fun h => ⟨hc _ h.1, hal _ h.2⟩)

/-- All sleepers are woken. -/
theorem wake_inv {s : St} (hi : Inv s) : Inv ⟨s.mem, fun u => match s.pc u with | .rAsleep o nx => .rWoken o nx | p => p⟩ := by
  generalize hf : (fun u => match s.pc u with | .rAsleep o nx => Pc.rWoken o nx | p => p) = f
  have hfu : ∀ u, (∃ o nx, s.pc u = .rAsleep o nx ∧ f u = .rWoken o nx) ∨ f u = s.pc u := by
    intro u
    have e : f u = (match s.pc u with | .rAsleep o nx => Pc.rWoken o nx | p => p) := by rw [← hf]
    rw [e]
    generalize s.pc u = q
    cases q <;> simp
  have hh : ∀ u, (f u).Holds → (s.pc u).Holds := by
    intro u h
    rcases hfu u with ⟨o, nx, h1, h2⟩ | h1
    · rw [h2] at h; exact absurd h id
    · rw [h1] at h; exact h
  have hk : ∀ u q, (∀ o nx, q ≠ .rAsleep o nx) → s.pc u = q → f u = q := by
    intro u q hq h
    rcases hfu u with ⟨o, nx, h1, h2⟩ | h1
    · exact absurd (h.symm.trans h1) (hq o nx)
    · rw [h1, h]
  constructor
  · exact hi.vb
  · exact hi.mb
  · exact fun t u a b => hi.excl t u (hh t a) (hh u b)
  · exact fun t a => hi.locked t (hh t a)
  · intro l i g h hc
    rcases hi.know l i g h hc with ⟨u, hu', hk'⟩ | ⟨h1, h2⟩
    · exact .inl ⟨u, hk u _ nofun hu', hk'⟩
    · exact .inr ⟨fun t ht => h1 t (hh t ht), h2⟩
  · intro u
    show Asleep _ (f u)
    rcases hfu u with ⟨o, nx, h1, h2⟩ | h1
    · rw [h2]; trivial
    · rw [h1]
      exact Asleep.congr (s := s) (s' := ⟨s.mem, f⟩) rfl (fun ⟨v, hv⟩ => ⟨v, hk v _ nofun hv⟩) (fun v hv => hk v _ nofun hv) (hi.thr u)

theorem upd_upd {α β : Type _} [DecidableEq α] (f : α → β) (a : α) (b c : β) : upd (upd f a b) a c = upd f a c := by
  funext x; simp only [upd]; split <;> rfl

/-- A load while the mutex is held, leaving the block or going on. -/
theorem loadStep_inv {s s' : St} (hi : Inv s) {t l i : Nat} {unl : Int → Bool} {pc : Int → Pc} (hs : load s t l i unl pc = some s')
    (h1 : s.pc t ≠ .sLock) (h2 : s.pc t ≠ .sNotify)
    (hu : ∀ v, unl v = true → (s.pc t).Holds ∧ pc v = .idle)
    (hn : ∀ v, unl v = false → (pc v).Holds → (s.pc t).Holds)
    (ha : ∀ v m, s.mem.load t l i = some (v, m) → unl v = false → Asleep ⟨m, upd s.pc t (pc v)⟩ (pc v)) : Inv s' := by
  unfold load at hs
  split at hs
  · next v m hl =>
    have hi' := load_inv hi hl
    cases hb : unl v with
    | true =>
      obtain ⟨a1, a2⟩ := hu v hb
      simp only [hb, if_true, Option.some.injEq] at hs
      have : s' = unlock ⟨m, s.pc⟩ t .idle := by rw [← hs]; simp only [unlock, upd_upd, a2]
      rw [this]
      exact unlock_inv hi' a1 id (fun h => absurd h h2) (.inr rfl) (fun _ => rfl)
    | false =>
      simp only [hb, Bool.false_eq_true, if_false, Option.some.injEq] at hs
      rw [← hs]
      exact inv_pc hi' (hn v hb) h1 h2 (ha v m hl hb)
  · cases hs

/-- Program points of the lite strategy only. -/
def Pc.Lite : Pc → Prop
  | .sExch | .rSet _ _ | .rAgain _ _ => True
  | _ => False

theorem upd_lite {f : Nat → Pc} (h : ∀ t, ¬ (f t).Lite) {p : Pc} (hp : ¬ p.Lite) (t : Nat) : ∀ u, ¬ (upd f t p u).Lite := by
  intro u; rw [upd_apply]; split
  · exact hp
  · exact h u

theorem load_lite {s s' : St} {t l i : Nat} {unl : Int → Bool} {pc : Int → Pc} (hs : load s t l i unl pc = some s')
    (h : ∀ t, ¬ (s.pc t).Lite) (hp : ∀ v, ¬ (pc v).Lite) : ∀ u, ¬ (s'.pc u).Lite := by
  unfold load at hs
  split at hs
  · cases hs
    split
    · exact upd_lite (upd_lite h (hp _) _) (hp _) t
    · exact upd_lite h (hp _) t
  · cases hs

theorem lock_lite {s s' : St} {t : Nat} {p : Pc} (hs : lock s t p = some s') (h : ∀ t, ¬ (s.pc t).Lite) (hp : ¬ p.Lite) : ∀ u, ¬ (s'.pc u).Lite := by
  unfold lock at hs
  split at hs
  · split at hs
    · cases hs; exact upd_lite h hp t
    · cases hs
  · cases hs

theorem step_lite {s s' : St} {a : Act} (hs : RaWait.step .blocking s a = some s') (h : ∀ t, ¬ (s.pc t).Lite) : ∀ u, ¬ (s'.pc u).Lite := by
  cases a with
  | go t i =>
    have ht := h t
    simp only [RaWait.step] at hs
    split at hs <;> (try rename_i e; try rw [e] at ht; try exact absurd trivial ht)
    · cases hs
    · exact lock_lite hs h id
    · cases hs
      refine upd_lite (fun u => ?_) id t
      have := h u
      revert this
      show ¬ (s.pc u).Lite → ¬ Pc.Lite (match s.pc u with | .rAsleep o nx => Pc.rWoken o nx | p => p)
      cases s.pc u <;> simp [Pc.Lite]
    · exact load_lite hs h (fun v => by split <;> exact id)
    · exact lock_lite hs h id
    · exact load_lite hs h (fun v => by split <;> exact id)
    · exact load_lite hs h (fun v => by split <;> exact id)
    · cases hs; exact upd_lite h id t
    · cases hs
    · exact lock_lite hs h id
  | spurious t =>
    simp only [RaWait.step] at hs
    split at hs
    · cases hs; exact upd_lite h id t
    · cases hs
  | _ =>
    simp only [RaWait.step] at hs
    split at hs
    · cases hs; first | exact h | exact upd_lite h id _
    · cases hs

theorem Inv.step {s s' : St} (hi : Inv s) (hlite : ∀ t, ¬ (s.pc t).Lite) {a : Act} (hs : RaWait.step .blocking s a = some s') : Inv s' := by
  cases a with
  | publish t x =>
    simp only [RaWait.step] at hs
    split at hs
    · next h => cases hs; exact store_inv hi h (.inl rfl) (.inl rfl)
    · cases hs
  | alert t o =>
    simp only [RaWait.step] at hs
    split at hs
    · next h => cases hs; exact store_inv hi h (.inr (by simp [alerted])) (.inl rfl)
    · cases hs
  | clearAlert t o =>
    simp only [RaWait.step] at hs
    split at hs
    · next h =>
      cases hs
      have := store_inv hi (t := t) (l := alerted o) (v := 0) (p := .idle) h (.inr (by simp [alerted])) (.inr ⟨rfl, by simp [alerted], rfl⟩)
      have e : upd s.pc t .idle = s.pc := by
        funext u; rw [upd_apply]; split
        · next e => rw [e, h]
        · rfl
      rw [e] at this; exact this
    · cases hs
  | wait t o nx =>
    simp only [RaWait.step] at hs
    split at hs
    · next h => cases hs; exact inv_pc hi (by simp [Pc.Holds]) (by rw [h]; nofun) (by rw [h]; nofun) trivial
    · cases hs
  | spurious t =>
    simp only [RaWait.step] at hs
    split at hs
    · next h => cases hs; exact inv_pc hi (by simp [Pc.Holds]) (by rw [h]; nofun) (by rw [h]; nofun) trivial
    · cases hs
  | go t i =>
    simp only [RaWait.step] at hs
    split at hs
    · cases hs
    · next h => have := hlite t; rw [h] at this; exact absurd trivial this
    · next h => exact lock_inv hi (p := .sNotify) trivial (fun _ => trivial) (fun _ => rfl) (by rw [h]; nofun) hs
    · next h =>
      cases hs
      refine unlock_inv (wake_inv hi) ?_ id ?_ (.inr rfl) (fun _ => rfl)
      · show (match s.pc t with | .rAsleep o nx => Pc.rWoken o nx | p => p).Holds
        rw [h]; trivial
      · intro _ u o nx
        show (match s.pc u with | .rAsleep o nx => Pc.rWoken o nx | p => p) ≠ _
        cases s.pc u <;> nofun
    · next o nx h =>
      refine loadStep_inv hi hs (by rw [h]; nofun) (by rw [h]; nofun) (fun v hv => ?_) (fun v _ => ?_) (fun v m _ _ => ?_)
      · cases hv
      · split <;> simp [Pc.Holds]
      · split <;> trivial
    · next o nx h => exact lock_inv hi (p := .rCheck o nx) trivial (fun _ => trivial) (fun e => by rw [h] at e; cases e) (by rw [h]; nofun) hs
    · next h => have := hlite t; rw [h] at this; exact absurd trivial this
    · next o nx h =>
      have hh : (s.pc t).Holds := by rw [h]; trivial
      refine loadStep_inv hi hs (by rw [h]; nofun) (by rw [h]; nofun) (fun v hv => ?_) (fun v _ _ => hh) (fun v m hl hv => ?_)
      · rw [if_neg (by simpa using hv)]; exact ⟨hh, rfl⟩
      · have hv : v < nx := by simpa using hv
        rw [if_pos hv]
        obtain ⟨g, hg, hgv, hle, rfl⟩ := Mem.load_some hl
        show Pend _ ∨ Newest _ cursor (· < nx)
        cases hlast : (s.mem.msgs cursor).getLast? with
        | none => right; intro g' hg'; have hg' : (s.mem.msgs cursor).getLast? = some g' := hg'; rw [hlast] at hg'; cases hg'
        | some g' =>
          by_cases hlt : g'.val < nx
          · right; intro g'' hg''; have hg'' : (s.mem.msgs cursor).getLast? = some g'' := hg''
            rw [hlast] at hg''; cases hg''; exact hlt
          · left
            obtain ⟨u, hu⟩ := old_pend hi hh hg hle hlast (.inl rfl) (by omega)
            refine ⟨u, ?_⟩
            show upd s.pc t _ u = _
            rw [upd_other]
            · exact hu
            · rintro rfl; rw [h] at hu; cases hu
    · next o nx h =>
      have hh : (s.pc t).Holds := by rw [h]; trivial
      refine loadStep_inv hi hs (by rw [h]; nofun) (by rw [h]; nofun) (fun v hv => ?_) (fun v _ _ => hh) (fun v m hl hv => ?_)
      · rw [if_neg (by simpa using hv)]; exact ⟨hh, rfl⟩
      · have hv : v = 0 := by simpa using hv
        subst hv
        rw [if_pos rfl]
        obtain ⟨g, hg, hgv, hle, rfl⟩ := Mem.load_some hl
        have hkeep : ∀ m', Pend s → Pend (⟨m', upd s.pc t (.rWait o nx)⟩ : St) := by
          rintro m' ⟨u, hu⟩
          refine ⟨u, ?_⟩
          show upd s.pc t _ u = _
          rw [upd_other]
          · exact hu
          · rintro rfl; rw [h] at hu; cases hu
        have hthr := hi.thr t
        rw [h] at hthr
        rcases hthr with hthr | hthr
        · exact .inl (hkeep _ hthr)
        · cases hlast : (s.mem.msgs (alerted o)).getLast? with
          | none => exact .inr ⟨hthr, fun g' hg' => by
              have hg' : (s.mem.msgs (alerted o)).getLast? = some g' := hg'; rw [hlast] at hg'; cases hg'⟩
          | some g' =>
            by_cases hlt : g'.val = 0
            · refine .inr ⟨hthr, fun g'' hg'' => ?_⟩
              have hg'' : (s.mem.msgs (alerted o)).getLast? = some g'' := hg''
              rw [hlast] at hg''; cases hg''; exact hlt
            · exact .inl (hkeep _ (old_pend hi hh hg hle hlast (.inr ⟨by simp [alerted], hlt⟩) (by omega)))
    · next o nx h =>
      cases hs
      have hh : (s.pc t).Holds := by rw [h]; trivial
      have hthr := hi.thr t
      rw [h] at hthr
      exact unlock_inv hi hh id (fun e => by rw [h] at e; cases e) (.inl (hthr.imp Or.inl id)) (fun e => by rw [h] at e; cases e)
    · cases hs
    · next o nx h => exact lock_inv hi (p := .rCheck o nx) trivial (fun _ => trivial) (fun e => by rw [h] at e; cases e) (by rw [h]; nofun) hs
    · next h => have := hlite t; rw [h] at this; exact absurd trivial this

theorem Reach.inv {s : St} (h : Reach .blocking s) : Inv s ∧ ∀ t, ¬ (s.pc t).Lite := by
  induction h with
  | init => exact ⟨Inv.init, fun t => id⟩
  | step a _ hs ih => exact ⟨ih.1.step ih.2 hs, step_lite hs ih.2⟩

end Verif.RaWait
