import Verif.Lemmas.MemDispatch
import Verif.Lemmas.ElDispatchHist
import Verif.Props.MemLive
import Verif.Props.CqLive

/-! The two in-memory middlewares are what Lemmas/MemDispatch.lean needs. -/

namespace Verif.MemD
open Verif ElD

variable {D : Type}

theorem absorb_hand (s : BM.St D) (l : List (SQ.Ev D)) : (∃ r, (BM.absorb s l).hand = s.hand ++ r) ∧ (BM.absorb s l).emitted = s.emitted := by
  induction l generalizing s with
  | nil => exact ⟨⟨[], by simp [BM.absorb]⟩, rfl⟩
  | cons e l ih =>
    cases e <;> simp only [BM.absorb] <;> first | exact ih _ | skip
    obtain ⟨⟨r, h1⟩, h2⟩ := ih { s with hand := s.hand ++ [by assumption] }
    exact ⟨⟨_, h1.trans (List.append_assoc ..)⟩, h2⟩

theorem head?_append_some {l r : List D} {d : D} (h : l.head? = some d) : (l ++ r).head? = some d := by
  cases l with
  | nil => cases h
  | cons x l => exact h

theorem lawful_basic (d : Bool) (n : Nat) : Lawful (basic D d n) (fun s => s.bm.emitted) where
  init := ⟨rfl, rfl⟩
  other s s' a ho hs := by
    change MemP.step d s a = some s' at hs
    change (∀ x, s.bm.hand.head? = some x → s'.bm.hand.head? = some x) ∧ s'.bm.emitted = s.bm.emitted ∧ (s.alive = true → s'.alive = true)
    cases a with
    | throw => cases ho
    | restart =>
      simp only [MemP.step] at hs
      split at hs <;> cases hs
      exact ⟨fun _ h => h, rfl, fun _ => rfl⟩
    | bm b =>
      simp only [MemP.step] at hs
      split at hs
      · cases hs
      split at hs
      · rename_i b' ev hb
        cases hs
        dsimp only
        refine ⟨?_, ?_, id⟩
        · intro x hx
          cases b <;> simp only [BM.step] at hb <;> (repeat' split at hb) <;> first | (cases hb; done) | (cases ho; done) | (cases hb)
          all_goals first
            | exact hx
            | (obtain ⟨⟨r, h1⟩, -⟩ := absorb_hand { s.bm with sq := _ } ev; rw [h1]; exact head?_append_some hx)
        · cases b <;> simp only [BM.step] at hb <;> (repeat' split at hb) <;> first | (cases hb; done) | (cases ho; done) | (cases hb)
          all_goals first
            | rfl
            | exact (absorb_hand { s.bm with sq := _ } ev).2
      · cases hs
  emit s s' hs := by
    change MemP.step d s (.bm .emit) = some s' at hs
    simp only [MemP.step, BM.step] at hs
    split at hs
    · cases hs
    split at hs
    · rename_i b ev hb
      split at hb
      · cases hb
      · rename_i x r hx
        cases hb; cases hs
        exact ⟨x, by simp [basic, hx], rfl⟩
    · cases hs
  throw s s' hs := by
    change MemP.step d s .throw = some s' at hs
    simp only [MemP.step] at hs
    split at hs
    · split at hs
      · rename_i x r hx
        cases hs
        exact ⟨x, by simp [basic, hx], rfl⟩
      · cases hs
    · cases hs
  can s x ha hh := by
    change s.alive = true at ha
    change s.bm.hand.head? = some x at hh
    cases hl : s.bm.hand with
    | nil => rw [hl] at hh; cases hh
    | cons y r =>
      constructor
      · exact Option.isSome_iff_exists.mp (show (MemP.step d s (.bm .emit)).isSome = true by simp only [MemP.step, BM.step, ha, hl]; simp)
      · exact Option.isSome_iff_exists.mp (show (MemP.step d s .throw).isSome = true by simp only [MemP.step, ha, hl, if_true]; rfl)

theorem lawful_concurrent (d : Bool) : Lawful (concurrent D d) (fun s => s.cq.emitted) where
  init := ⟨rfl, rfl⟩
  other s s' a ho hs := by
    change CqP.step d s a = some s' at hs
    change (∀ x, s.cq.hand.head? = some x → s'.cq.hand.head? = some x) ∧ s'.cq.emitted = s.cq.emitted ∧ (s.alive = true → s'.alive = true)
    cases CqP.step_eff hs with
    | throw ha => subst ha; cases ho
    | restart ha hl e => subst e; exact ⟨fun _ h => h, rfl, fun _ => rfl⟩
    | cq b ha hp hb hl =>
      subst ha
      refine ⟨?_, ?_, fun h => hl.trans h⟩
      · intro x hx
        cases b <;> first | (cases ho; done) | (rw [(CqP.cq_other rfl hb).1]; exact hx) | skip
        simp only [CQ.step] at hb
        cases hh : CQ.St.hand (CqP.St.cq s) with
        | nil => rw [hh] at hx; cases hx
        | cons y l => rw [hh] at hb; cases hb
      · cases b <;> first | (cases ho; done) | exact (CqP.cq_other rfl hb).2 | skip
        simp only [CQ.step] at hb
        (repeat' split at hb) <;> first | (cases hb; done) | (injection hb with hb; rw [← hb])
  emit s s' hs := by
    change CqP.step d s (.cq .emit) = some s' at hs
    simp only [CqP.step, CQ.step] at hs
    split at hs
    · cases hs
    split at hs
    · rename_i c hc
      split at hc
      · rename_i x r hx
        cases hc; cases hs
        exact ⟨x, by simp [concurrent, hx], rfl⟩
      · cases hc
    · cases hs
  throw s s' hs := by
    change CqP.step d s .throw = some s' at hs
    simp only [CqP.step] at hs
    split at hs
    · split at hs
      · rename_i x r hx
        cases hs
        exact ⟨x, by simp [concurrent, hx], rfl⟩
      · cases hs
    · cases hs
  can s x ha hh := by
    change s.alive = true at ha
    change s.cq.hand.head? = some x at hh
    cases hl : s.cq.hand with
    | nil => rw [hl] at hh; cases hh
    | cons y r =>
      constructor
      · exact Option.isSome_iff_exists.mp (show (CqP.step d s (.cq .emit)).isSome = true by simp only [CqP.step, CQ.step, ha, hl]; simp)
      · exact Option.isSome_iff_exists.mp (show (CqP.step d s .throw).isSome = true by simp only [CqP.step, ha, hl, if_true]; rfl)

/-- What the middleware does, seen without the listeners. -/
inductive ChReach (C : Chan D) : C.σ → Prop where
  | init : ChReach C C.init
  | step {s s' : C.σ} {a : C.Act} : ChReach C s → C.may s → C.step s a = some s' → ChReach C s'

theorem Reach.ch {C : Chan D} {n : String} {c : Bool} {kind : Kind} {s : St C} (h : Reach n c kind s) : ChReach C s.ch := by
  induction h with
  | init => exact .init
  | @step s s' x _ hok hs ih =>
    have hmay : C.may s.ch := by
      cases x <;> first | exact hok | exact hok.1
    cases x <;> simp only [MemD.step, thrown] at hs <;> (repeat' split at hs) <;>
      first
      | (cases hs; done)
      | (cases hs; exact ih)
      | (obtain ⟨ch, hc, rfl⟩ := Option.map_eq_some_iff.mp hs; exact ih.step hmay hc)

theorem ChReach.basic {d : Bool} {n : Nat} {s : MemP.St D} (h : ChReach (basic D d n) s) : MemP.Reach d n s := by
  have : ∀ s : (MemD.basic D d n).σ, ChReach (MemD.basic D d n) s → MemP.Reach d n s := by
    intro s h
    induction h with
    | init => exact .init
    | step _ _ hs ih => exact MemP.Reach.step ih hs
  exact this s h

theorem ChReach.concurrent {d : Bool} {s : CqP.St D} (h : ChReach (concurrent D d) s) : CqP.Reach d s := by
  have : ∀ s : (MemD.concurrent D d).σ, ChReach (MemD.concurrent D d) s → CqP.Reach d s := by
    intro s h
    induction h with
    | init => exact .init
    | step _ hm hs ih => exact CqP.Reach.step ih hm hs
  exact this s h

end Verif.MemD
