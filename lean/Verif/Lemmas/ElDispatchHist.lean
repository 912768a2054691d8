import Verif.Lemmas.ElDispatchSpec

/-! What the specification of C79 and C81 means for a listener: theorems about histories. -/

namespace Verif.ElD
open Verif

variable {D F : Type} [DecidableEq D] [DecidableEq F]

theorem hist_named {h1 h2 : List (Ev (Msg D F))} {n l : String} {a' : Abs (Msg D F)} (hr : (Abs.init : Abs (Msg D F)).run (h1 ++ .reg n l :: h2) = some a')
    (hnt : NoThrow h2) (hrem : .rem n l ∉ h2) : callsOf (regs h1) (h1 ++ .reg n l :: h2) ++ pend (regs h1) a' = eventsOn n h2 := by
  obtain ⟨own, a, hw, hrun, hno, hown, hon, hp, hc⟩ := after_reg hr (n := n) (kd := .named l) (fun _ => rfl)
  have := track_exact hw hrun hno (by rw [hown]; exact hon) hnt (by rw [hown]; nofun) (by
    intro l' hl'
    rw [hown] at hl' ⊢
    cases hl'
    exact hrem)
  rw [hown, hp, List.nil_append] at this
  rw [← this, List.append_cons]
  simp only [callsOf, List.filterMap_append]
  simp only [callsOf, List.filterMap_append] at hc
  rw [hc, List.nil_append]

theorem hist_once {h1 h2 : List (Ev (Msg D F))} {n : String} {a' : Abs (Msg D F)} (hr : (Abs.init : Abs (Msg D F)).run (h1 ++ .once n :: h2) = some a')
    (hnt : NoThrow h2) : callsOf (regs h1) (h1 ++ .once n :: h2) ++ pend (regs h1) a' = (eventsOn n h2).take 1 := by
  obtain ⟨own, a, hw, hrun, hno, hown, hon, hp, hc⟩ := after_reg hr (n := n) (kd := .once) (fun _ => rfl)
  have := track_once hw hrun hno (by rw [hown]; exact hon) hnt (by rw [hown])
  rw [hown, hp, List.nil_append] at this
  rw [← this, List.append_cons]
  simp only [callsOf, List.filterMap_append]
  simp only [callsOf, List.filterMap_append] at hc
  rw [hc, List.nil_append]

theorem hist_sub {h1 h2 : List (Ev (Msg D F))} {n : String} {e : Ev (Msg D F)} {a' : Abs (Msg D F)} (he : (∃ l, e = .reg n l) ∨ e = .once n ∨ e = .sched n)
    (hr : (Abs.init : Abs (Msg D F)).run (h1 ++ e :: h2) = some a') : (callsOf (regs h1) (h1 ++ e :: h2)).Sublist (eventsOn n h2) := by
  have main : ∀ kd, (∀ a : Abs (Msg D F), a.next e = some { a with count := a.count + 1, live := upd a.live n (a.live n ++ [⟨a.count, kd⟩]) }) →
      (callsOf (regs h1) (h1 ++ e :: h2)).Sublist (eventsOn n h2) := by
    intro kd hkd
    obtain ⟨own, a, hw, hrun, hno, hown, hon, hp, hc⟩ := after_reg hr (n := n) (kd := kd) hkd
    have := track_sub hw hrun hno
    rw [hown, hp, List.nil_append] at this
    have := (List.sublist_append_left _ _).trans this
    rw [List.append_cons]
    simp only [callsOf, List.filterMap_append] at hc this ⊢
    rw [hc, List.nil_append]
    exact this
  rcases he with ⟨l, rfl⟩ | rfl | rfl
  · exact main (.named l) (fun _ => rfl)
  · exact main .once (fun _ => rfl)
  · exact main .exec (fun _ => rfl)

theorem hist_removed {h1 h2 h3 : List (Ev (Msg D F))} {n l : String} {a' : Abs (Msg D F)}
    (hr : (Abs.init : Abs (Msg D F)).run (h1 ++ .reg n l :: (h2 ++ .rem n l :: h3)) = some a') :
    (callsOf (regs h1) h3).length ≤ 1 ∧ ∀ h4 n' m h5, h3 = h4 ++ .start n' m :: h5 → callsOf (regs h1) h5 = [] := by
  obtain ⟨own, a, hw, hrun, hno, hown, hon, hp, hc⟩ := after_reg hr (n := n) (kd := .named l) (fun _ => rfl)
  generalize hgen : regs h1 = no at *
  -- the owner of a number does not change
  have keep : ∀ (es : List (Ev (Msg D F))) (own : Nat → String × K) (a a' : Abs (Msg D F)), W own a → a.run es = some a' → no < a.count → own no = (n, .named l) →
      ∃ own', W own' a' ∧ no < a'.count ∧ own' no = (n, .named l) := by
    intro es
    induction es with
    | nil => intro own a a' hw hr hno ho; cases hr; exact ⟨own, hw, hno, ho⟩
    | cons e es ih =>
      intro own a a' hw hr hno ho
      simp only [Abs.run] at hr
      split at hr
      · cases hr
      · rename_i a1 g1
        obtain ⟨own', g2, g3, g4⟩ := hw.next g1
        exact ih own' a1 a' g2 hr (by omega) (by rw [g4 no hno]; exact ho)
  rw [Abs.run_append] at hrun
  obtain ⟨a2, hr2, hrun⟩ := Option.bind_eq_some_iff.mp hrun
  obtain ⟨own2, hw2, hno2, hown2⟩ := keep h2 own a a2 hw hr2 hno hown
  simp only [Abs.run, Abs.next] at hrun
  obtain ⟨own3, hw3, hno3, hown3⟩ := keep [.rem n l] own2 a2 _ hw2 (by simp only [Abs.run, Abs.next]; rfl) hno2 hown2
  have hgone : ∀ (a3 : Abs (Msg D F)), a3 = { a2 with live := upd a2.live n ((a2.live n).filter fun e => decide (e.kind ≠ .named l)) } → ¬ On no n a3 := by
    rintro a3 rfl ho
    simp only [On, upd_same] at ho
    obtain ⟨x, hx, hxe⟩ := List.mem_map.mp ho
    obtain ⟨hx, hk'⟩ := List.mem_filter.mp hx
    rw [decide_eq_true_eq] at hk'
    have := (hw2.live n x hx).1
    rw [hxe, hown2] at this
    exact hk' (congrArg Prod.snd this).symm
  have hg3 := hgone _ rfl
  have hsub := track_gone hw3 hrun hno3 (by rw [hown3]; exact hg3)
  refine ⟨?_, ?_⟩
  · have := ((List.sublist_append_left _ _).trans hsub).length_le
    exact Nat.le_trans this (pend_le _ _)
  · rintro h4 n' m h5 rfl
    rw [Abs.run_append] at hrun
    obtain ⟨a4, hr4, hrun⟩ := Option.bind_eq_some_iff.mp hrun
    obtain ⟨own4, hw4, hno4, hown4⟩ := keep h4 own3 _ a4 hw3 hr4 hno3 hown3
    have hg4 : ¬ On no n a4 := by
      have : ∀ (es : List (Ev (Msg D F))) (own : Nat → String × K) (a a' : Abs (Msg D F)), W own a → a.run es = some a' → no < a.count → own no = (n, .named l) →
          ¬ On no n a → ¬ On no n a' := by
        intro es
        induction es with
        | nil => intro own a a' hw hr hno ho hg; cases hr; exact hg
        | cons e es ih =>
          intro own a a' hw hr hno ho hg
          simp only [Abs.run] at hr
          split at hr
          · cases hr
          · rename_i a1 g1
            obtain ⟨own', g2, g3, g4⟩ := hw.next g1
            exact ih own' a1 a' g2 hr (by omega) (by rw [g4 no hno]; exact ho) ((next_track hw g1 hno (by rw [ho])).2.2.1 hg)
      exact this h4 own3 _ a4 hw3 hr4 hno3 hown3 hg3
    have hcur : a4.cur = none := by
      simp only [Abs.run] at hrun
      cases m with
      | none => cases hrun
      | some m =>
        simp only [Abs.next] at hrun
        by_cases hc : a4.cur.isNone = true
        · rwa [Option.isNone_iff_eq_none] at hc
        · rw [if_neg hc] at hrun; cases hrun
    have := track_gone hw4 hrun hno4 (by rw [hown4]; exact hg4)
    rw [show pend no a4 = [] by simp [pend, hcur]] at this
    have := List.sublist_nil.mp this
    have := (List.append_eq_nil_iff.mp this).1
    rw [callsOf_cons] at this
    exact (List.append_eq_nil_iff.mp this).2

end Verif.ElD
