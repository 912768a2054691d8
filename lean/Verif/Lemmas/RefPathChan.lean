import Verif.Lemmas.RefPath
import Verif.Spec.RefPath
import Verif.Lemmas.EventLoop
import Verif.Lemmas.BasicMiddleware
import Verif.Lemmas.MemLive
import Verif.Lemmas.CqLive
import Verif.Lemmas.LoopLive

/-! Lemmas for C78: the three middleware hold only events that were given to `publish`. -/

namespace Verif.RefP
open Verif Verif.Pool

/-- States of the middleware alone. -/
inductive CReach {D : Type} (C : Chan D) (P : C.S → C.A → Prop) : C.S → Prop where
  | init : CReach C P C.init
  | step {s s' a} : CReach C P s → P s a → C.step s a = some s' → CReach C P s'

theorem Reach.chan {T : Type} {C : Chan Tag} {c : Cfg T} {P : C.S → C.A → Prop} {s : St T C} (h : Reach c P s) : CReach C P s.ch := by
  induction h with
  | init => exact .init
  | @step s s' a _ hP hs ih =>
    cases a with
    | acquire t call =>
      simp only [RefP.step] at hs
      (repeat' split at hs) <;> first | (cases hs; done) | (cases hs; exact ih)
    | write t =>
      simp only [RefP.step] at hs
      (repeat' split at hs) <;> first | (cases hs; done) | (cases hs; exact ih)
    | send t a =>
      simp only [RefP.step] at hs
      split at hs
      · split at hs
        · split at hs
          · split at hs
            · next ch' h' => cases hs; exact ih.step (hP a rfl) h'
            · cases hs
          · cases hs
        · cases hs
      · cases hs
    | chan a =>
      simp only [RefP.step] at hs
      split at hs
      · cases hs
      · split at hs
        · next ch' h' => cases hs; exact ih.step (hP a rfl) h'
        · cases hs
    | finish t =>
      simp only [RefP.step] at hs
      (repeat' split at hs) <;> first | (cases hs; done) | (cases hs; exact ih)
    | read =>
      simp only [RefP.step] at hs
      (repeat' split at hs) <;> first | (cases hs; done) | (cases hs; exact ih)
    | keep =>
      simp only [RefP.step] at hs
      (repeat' split at hs) <;> first | (cases hs; done) | (cases hs; exact ih)
    | readKept i =>
      simp only [RefP.step] at hs
      (repeat' split at hs) <;> first | (cases hs; done) | (cases hs; exact ih)
    | dropKept i =>
      simp only [RefP.step] at hs
      (repeat' split at hs) <;> first | (cases hs; done) | (cases hs; exact ih)

/-! ### Event loop -/

theorem mem_slots {k : Nat} {s : EvLoop.St Tag} {d : Tag} : d ∈ (evLoop k).held s ↔
    ∃ i t, i < 2 ^ k ∧ s.cleared i = false ∧ s.ring.slot i = some (t, d) := by
  simp only [evLoop, List.mem_filterMap, List.mem_range]
  constructor
  · rintro ⟨i, hi, h⟩
    split at h
    · cases h
    · next hc =>
      obtain ⟨⟨t, d'⟩, h1, h2⟩ := Option.map_eq_some_iff.mp h
      subst h2
      exact ⟨i, t, hi, by simpa using hc, h1⟩
  · rintro ⟨i, t, hi, hc, h⟩
    exact ⟨i, hi, by simp [hc, h]⟩

theorem slot_lt {k : Nat} (hk : k ≤ 30) (x : Int) : Disr.slotIdx k x < 2 ^ k := by
  rw [Disr.slotIdx_eq hk]
  have h1 := Int.emod_lt_of_pos x (show (0 : Int) < 2 ^ k by positivity)
  have h2 := Int.emod_nonneg x (show (2 : Int) ^ k ≠ 0 by positivity)
  have : ((x % 2 ^ k).toNat : Int) < ((2 ^ k : Nat) : Int) := by
    rw [Int.toNat_of_nonneg h2]; push_cast; exact h1
  exact_mod_cast this

theorem ev_lawful {k : Nat} (hk : k ≤ 30) : Lawful (evLoop k) EvLoop.PcInv (fun _ _ => True) where
  init := by intro p; exact rfl
  step := by intro s s' a hi _ hs; exact hi.step (EvLoop.step_eff hi hs)
  held_init := by simp [evLoop, EvLoop.St.init]
  arg_init := by intro t d; simp [evLoop, EvLoop.St.init]
  held_step := by
    intro s s' a hi _ hs d hd
    obtain ⟨i, t, hi', hc, h⟩ := mem_slots.mp hd
    have e := EvLoop.step_eff hi hs
    have keep : s'.cleared i = s.cleared i → s'.ring.slot i = s.ring.slot i → d ∈ (evLoop k).held s := by
      intro h1 h2; exact mem_slots.mpr ⟨i, t, hi', by rw [← h1]; exact hc, by rw [← h2]; exact h⟩
    cases e with
    | write p t' d' x h1 h2 h3 =>
      by_cases hx : i = Disr.slotIdx k x
      · right
        refine ⟨p, .inl (.inr ⟨t', x, ?_⟩)⟩
        rw [h3] at h
        simp only [hx, upd_same, Option.some.injEq, Prod.mk.injEq] at h
        rw [h1, h.2]
      · left
        apply keep
        · rw [h3]; exact upd_other _ _ hx
        · rw [h3]; exact upd_other _ _ hx
    | finish nx av h2 h3 =>
      left
      have hx : i ≠ Disr.slotIdx k nx := by
        rintro rfl
        rw [h3] at hc
        simp [upd_same] at hc
      apply keep
      · rw [h3]; exact upd_other _ _ hx
      · rw [h3]
    | call p t d h1 h => left; apply keep <;> rw [h]
    | got p t d h1 h2 h => left; apply keep <;> (rw [h]; try rfl)
    | refused p t d m h1 h => left; apply keep <;> rw [h]
    | more p t d m pc' h1 h2 h3 h => left; apply keep <;> rw [h]
    | weak p t d cur h1 h2 h => left; apply keep <;> rw [h]
    | publish p t d x h1 h2 h => left; apply keep <;> rw [h]
    | start h1 h => left; apply keep <;> rw [h]
    | run h1 h2 h => left; apply keep <;> rw [h]
    | lookNone nx h2 h3 h => left; apply keep <;> rw [h]
    | look nx h2 h3 h => left; apply keep <;> rw [h]
    | scan nx hi i pc' h2 h3 h => left; apply keep <;> rw [h]
    | event nx av h2 h3 h => left; apply keep <;> rw [h]
    | batchEnd nx av h2 h3 h => left; apply keep <;> rw [h]
    | throw nx av h2 h => left; apply keep <;> rw [h]
    | stop nx h1 h2 h => left; apply keep <;> rw [h]
  arg_step := by
    intro s s' a hi _ hs p d ha
    have e := EvLoop.step_eff hi hs
    have keep : s'.pc p = s.pc p → (evLoop k).arg s p d := by
      intro h1
      change (∃ t, s'.pc p = .claiming t d) ∨ ∃ t x, s'.pc p = .claimed t d x at ha
      rw [h1] at ha; exact ha
    have ha' : (∃ t, s'.pc p = .claiming t d) ∨ ∃ t x, s'.pc p = .claimed t d x := ha
    cases e with
    | call q t d' h1 h =>
      by_cases hq : p = q
      · right
        rw [h] at ha'
        simp only [hq, upd_same] at ha'
        rcases ha' with ⟨t', e⟩ | ⟨t', x, e⟩
        · cases e; rw [hq]; rfl
        · cases e
      · left; apply keep; rw [h]; exact upd_other _ _ hq
    | got q t d' h1 h2 h =>
      left
      by_cases hq : p = q
      · rw [h] at ha'
        simp only [hq, upd_same] at ha'
        rcases ha' with ⟨t', e⟩ | ⟨t', x, e⟩
        · cases e
        · cases e; rw [hq]; exact .inl ⟨t, h1⟩
      · apply keep; rw [h]; exact upd_other _ _ hq
    | refused q t d' m h1 h =>
      left
      by_cases hq : p = q
      · rw [h] at ha'
        simp only [hq, upd_same] at ha'
        rcases ha' with ⟨t', e⟩ | ⟨t', x, e⟩ <;> cases e
      · apply keep; rw [h]; exact upd_other _ _ hq
    | more q t d' m pc' h1 h2 h3 h => left; apply keep; rw [h]
    | weak q t d' cur h1 h2 h => left; apply keep; rw [h]
    | write q t d' x h1 h2 h =>
      left
      by_cases hq : p = q
      · rw [h] at ha'
        simp only [hq, upd_same] at ha'
        rcases ha' with ⟨t', e⟩ | ⟨t', x, e⟩ <;> cases e
      · apply keep; rw [h]; exact upd_other _ _ hq
    | publish q t d' x h1 h2 h =>
      left
      by_cases hq : p = q
      · rw [h] at ha'
        simp only [hq, upd_same] at ha'
        rcases ha' with ⟨t', e⟩ | ⟨t', x, e⟩ <;> cases e
      · apply keep; rw [h]; exact upd_other _ _ hq
    | start h1 h => left; apply keep; rw [h]
    | run h1 h2 h => left; apply keep; rw [h]
    | lookNone nx h2 h3 h => left; apply keep; rw [h]
    | look nx h2 h3 h => left; apply keep; rw [h]
    | scan nx hi i pc' h2 h3 h => left; apply keep; rw [h]
    | event nx av h2 h3 h => left; apply keep; rw [h]
    | batchEnd nx av h2 h3 h => left; apply keep; rw [h]
    | finish nx av h2 h => left; apply keep; rw [h]
    | throw nx av h2 h => left; apply keep; rw [h]
    | stop nx h1 h2 h => left; apply keep; rw [h]
  cur_held := by
    intro s d _ h
    simp only [evLoop] at h
    split at h
    · next nx av hcp =>
      split at h
      · cases h
      · next hc =>
        obtain ⟨⟨t, d'⟩, h1, h2⟩ := Option.map_eq_some_iff.mp h
        subst h2
        exact mem_slots.mpr ⟨_, t, slot_lt hk _, by simpa using hc, h1⟩
    · cases h
  arg_busy := by
    intro s t d _ h
    rcases h with ⟨t', h⟩ | ⟨t', x, h⟩ <;> simp [evLoop, h]

theorem ev_held_length (k : Nat) (s : EvLoop.St Tag) : ((evLoop k).held s).length ≤ 2 ^ k := by
  have := List.length_filterMap_le (fun i => if s.cleared i then none else (s.ring.slot i).map (·.2)) (List.range (2 ^ k))
  simpa [evLoop] using this

/-! ### SafeQueue -/

theorem sq_nf {α : Type} (s : SQ.St α) (pick : Nat) : (∀ x, x ∈ (SQ.notifyNF s pick).wnf ∨ x ∈ (SQ.notifyNF s pick).knf → x ∈ s.wnf ∨ x ∈ s.knf) ∧
    (SQ.notifyNF s pick).q = s.q := by
  unfold SQ.notifyNF
  split
  · exact ⟨fun _ h => h, rfl⟩
  · next c h =>
    refine ⟨fun x hx => ?_, rfl⟩
    rcases hx with hx | hx
    · exact .inl (List.mem_of_mem_eraseIdx hx)
    · rcases List.mem_append.mp hx with hx | hx
      · exact .inr hx
      · rw [List.mem_singleton.mp hx]; exact .inl (List.mem_of_getElem? h)

theorem sq_ne {α : Type} (s : SQ.St α) (pick : Nat) : (SQ.notifyNE s pick).wnf = s.wnf ∧ (SQ.notifyNE s pick).knf = s.knf ∧
    (SQ.notifyNE s pick).q = s.q := by
  unfold SQ.notifyNE
  split <;> exact ⟨rfl, rfl, rfl⟩

theorem dropOld_sub {α : Type} (m : Nat) (l : List α) : ∀ x ∈ (SQ.dropOld m l).2, x ∈ l := by
  induction l with
  | nil => simp [SQ.dropOld]
  | cons y l ih =>
    intro x hx
    simp only [SQ.dropOld] at hx
    split at hx
    · exact List.mem_cons_of_mem _ (ih x hx)
    · exact hx

/-- The item an action pushes. -/
def pushArg {α : Type} : SQ.Act α → Option (Nat × α)
  | .call t (.push x) _ => some (t, x)
  | .call t (.tryPush x) _ => some (t, x)
  | .call t (.forcePush x) _ => some (t, x)
  | _ => none

theorem popped_discarded {α : Type} (l : List α) (t : Nat) (x : α) (n : Nat) : BM.poppedItems (l.map SQ.Ev.discarded ++ [.forced t x n]) = [] := by
  induction l with
  | nil => rfl
  | cons a l ih => simpa [BM.poppedItems] using ih

theorem sq_origin {α : Type} {s s' : SQ.St α} {a : SQ.Act α} {ev : List (SQ.Ev α)} (h : SQ.step s a = .ok s' ev) :
    (∀ x, x ∈ s'.q ∨ x ∈ BM.poppedItems ev → x ∈ s.q ∨ (∃ t, (t, x) ∈ s.wnf ∨ (t, x) ∈ s.knf) ∨ ∃ t, pushArg a = some (t, x)) ∧
      ∀ y, y ∈ s'.wnf ∨ y ∈ s'.knf → (y ∈ s.wnf ∨ y ∈ s.knf) ∨ pushArg a = some y := by
  have push : ∀ (s : SQ.St α) (t : Nat) (x : α) (pick : Nat), SQ.bodyPush s t x pick = .ok s' ev →
      (∀ y, y ∈ s'.q ∨ y ∈ BM.poppedItems ev → y ∈ s.q ∨ y = x) ∧ ∀ y, y ∈ s'.wnf ∨ y ∈ s'.knf → (y ∈ s.wnf ∨ y ∈ s.knf) ∨ y = (t, x) := by
    intro s t x pick h
    unfold SQ.bodyPush at h
    split at h
    · cases h
      obtain ⟨h1, h2, h3⟩ := sq_ne { s with q := s.q ++ [x] } pick
      rw [h1, h2, h3]
      refine ⟨fun y hy => ?_, fun y hy => .inl hy⟩
      simpa [BM.poppedItems] using hy
    · cases h
      refine ⟨fun y hy => ?_, fun y hy => ?_⟩
      · left; simpa [BM.poppedItems] using hy
      · simp only [List.mem_append, List.mem_singleton] at hy; tauto
  have front : ∀ (s : SQ.St α) (t pick : Nat), SQ.takeFront s t pick = .ok s' ev →
      (∀ y, y ∈ s'.q ∨ y ∈ BM.poppedItems ev → y ∈ s.q) ∧ ∀ y, y ∈ s'.wnf ∨ y ∈ s'.knf → y ∈ s.wnf ∨ y ∈ s.knf := by
    intro s t pick h
    unfold SQ.takeFront at h
    split at h
    · cases h
    · next x q hq =>
      cases h
      obtain ⟨h1, h2⟩ := sq_nf { s with q := q } pick
      rw [h2]
      refine ⟨fun y hy => ?_, h1⟩
      rw [hq]
      simp only [BM.poppedItems, List.mem_singleton] at hy
      simp; tauto
  have pop : ∀ (s : SQ.St α) (t pick : Nat), SQ.bodyPop s t pick = .ok s' ev →
      (∀ y, y ∈ s'.q ∨ y ∈ BM.poppedItems ev → y ∈ s.q) ∧ ∀ y, y ∈ s'.wnf ∨ y ∈ s'.knf → y ∈ s.wnf ∨ y ∈ s.knf := by
    intro s t pick h
    unfold SQ.bodyPop at h
    split at h
    · cases h
      exact ⟨fun y hy => by simpa [BM.poppedItems] using hy, fun y hy => hy⟩
    · exact front s t pick h
  cases a with
  | call t op pick =>
    simp only [SQ.step] at h
    split at h
    · cases h
    · cases op with
      | push x =>
        obtain ⟨h1, h2⟩ := push s t x pick h
        refine ⟨fun y hy => ?_, fun y hy => ?_⟩
        · rcases h1 y hy with e | e
          · exact .inl e
          · exact .inr (.inr ⟨t, by rw [e]; rfl⟩)
        · rcases h2 y hy with e | e
          · exact .inl e
          · exact .inr (by rw [e]; rfl)
      | tryPush x =>
        simp only [SQ.bodyTryPush] at h
        split at h
        · cases h
          exact ⟨fun y hy => by left; simpa [BM.poppedItems] using hy, fun y hy => .inl hy⟩
        · cases h
          obtain ⟨h1, h2, h3⟩ := sq_ne { s with q := s.q ++ [x] } pick
          rw [h1, h2, h3]
          refine ⟨fun y hy => ?_, fun y hy => .inl hy⟩
          simp only [BM.poppedItems, List.not_mem_nil, or_false, List.mem_append, List.mem_singleton] at hy
          rcases hy with e | e
          · exact .inl e
          · exact .inr (.inr ⟨t, by rw [e]; rfl⟩)
      | forcePush x =>
        simp only [SQ.bodyForcePush] at h
        cases h
        obtain ⟨h1, h2, h3⟩ := sq_ne { s with q := (SQ.dropOld s.max s.q).2 ++ [x] } pick
        rw [h1, h2, h3, popped_discarded]
        refine ⟨fun y hy => ?_, fun y hy => .inl hy⟩
        simp only [List.not_mem_nil, or_false, List.mem_append, List.mem_singleton] at hy
        rcases hy with e | e
        · exact .inl (dropOld_sub _ _ _ e)
        · exact .inr (.inr ⟨t, by rw [e]; rfl⟩)
      | pop =>
        obtain ⟨h1, h2⟩ := pop s t pick h
        exact ⟨fun y hy => .inl (h1 y hy), fun y hy => .inl (h2 y hy)⟩
      | tryPop =>
        simp only [SQ.bodyTryPop] at h
        split at h
        · cases h
          exact ⟨fun y hy => by left; simpa [BM.poppedItems] using hy, fun y hy => .inl hy⟩
        · obtain ⟨h1, h2⟩ := front s t pick h
          exact ⟨fun y hy => .inl (h1 y hy), fun y hy => .inl (h2 y hy)⟩
      | timedPop tmo =>
        simp only [SQ.bodyTimedPop] at h
        split at h
        · split at h <;> cases h
          · exact ⟨fun y hy => by left; simpa [BM.poppedItems] using hy, fun y hy => .inl hy⟩
          · exact ⟨fun y hy => by left; simpa [BM.poppedItems] using hy, fun y hy => .inl hy⟩
        · obtain ⟨h1, h2⟩ := front s t pick h
          exact ⟨fun y hy => .inl (h1 y hy), fun y hy => .inl (h2 y hy)⟩
  | spuriousNE i =>
    simp only [SQ.step] at h
    split at h
    · cases h
    · cases h
      exact ⟨fun y hy => by left; simpa [BM.poppedItems] using hy, fun y hy => .inl hy⟩
  | expireNE i =>
    simp only [SQ.step] at h
    split at h
    · cases h
    · split at h <;> cases h
      exact ⟨fun y hy => by left; simpa [BM.poppedItems] using hy, fun y hy => .inl hy⟩
  | spuriousNF i =>
    simp only [SQ.step] at h
    split at h
    · cases h
    · next c hc =>
      cases h
      refine ⟨fun y hy => by left; simpa [BM.poppedItems] using hy, fun y hy => .inl ?_⟩
      rcases hy with hy | hy
      · exact .inl (List.mem_of_mem_eraseIdx hy)
      · rcases List.mem_append.mp hy with hy | hy
        · exact .inr hy
        · rw [List.mem_singleton.mp hy]; exact .inl (List.mem_of_getElem? hc)
  | resumeNE i late pick =>
    simp only [SQ.step] at h
    split at h
    · cases h
    · next c why hc =>
      unfold SQ.bodyResumeNE at h
      split at h
      · split at h
        · cases h
          exact ⟨fun y hy => by left; simpa [BM.poppedItems] using hy, fun y hy => .inl hy⟩
        · obtain ⟨h1, h2⟩ := front _ _ pick h
          exact ⟨fun y hy => .inl (h1 y hy), fun y hy => .inl (h2 y hy)⟩
      · obtain ⟨h1, h2⟩ := pop _ _ pick h
        exact ⟨fun y hy => .inl (h1 y hy), fun y hy => .inl (h2 y hy)⟩
  | resumeNF i pick =>
    simp only [SQ.step] at h
    split at h
    · cases h
    · next t x hc =>
      obtain ⟨h1, h2⟩ := push _ t x pick h
      refine ⟨fun y hy => ?_, fun y hy => .inl ?_⟩
      · rcases h1 y hy with e | e
        · exact .inl e
        · exact .inr (.inl ⟨t, .inr (by rw [e]; exact List.mem_of_getElem? hc)⟩)
      · rcases h2 y hy with (e | e) | e
        · exact .inl e
        · exact .inr (List.mem_of_mem_eraseIdx e)
        · exact .inr (by rw [e]; exact List.mem_of_getElem? hc)
  | setMax m =>
    simp only [SQ.step] at h
    cases h
    exact ⟨fun y hy => by left; simpa [BM.poppedItems] using hy, fun y hy => .inl hy⟩

theorem bm_origin {d : Bool} {s s' : BM.St Tag} {a : BM.Act Tag} {ev : List (SQ.Ev Tag)} (h : BM.step d s a = some (s', ev)) :
    (∀ x, x ∈ s'.sq.q ++ s'.hand → x ∈ s.sq.q ++ s.hand ∨ ∃ t, ((t, x) ∈ s.sq.wnf ∨ (t, x) ∈ s.sq.knf) ∨ (memQ d 0).call (.bm a) = some (t, x)) ∧
      ∀ y, y ∈ s'.sq.wnf ∨ y ∈ s'.sq.knf → (y ∈ s.sq.wnf ∨ y ∈ s.sq.knf) ∨ (memQ d 0).call (.bm a) = some y := by
  have q : ∀ (b : SQ.Act Tag) (q' : SQ.St Tag) (ev : List (SQ.Ev Tag)), SQ.step s.sq b = .ok q' ev →
      (∀ y, pushArg b = some y → (memQ d 0).call (.bm a) = some y) → s' = BM.absorb { s with sq := q' } ev →
      (∀ x, x ∈ s'.sq.q ++ s'.hand → x ∈ s.sq.q ++ s.hand ∨ ∃ t, ((t, x) ∈ s.sq.wnf ∨ (t, x) ∈ s.sq.knf) ∨ (memQ d 0).call (.bm a) = some (t, x)) ∧
      ∀ y, y ∈ s'.sq.wnf ∨ y ∈ s'.sq.knf → (y ∈ s.sq.wnf ∨ y ∈ s.sq.knf) ∨ (memQ d 0).call (.bm a) = some y := by
    intro b q' ev hb hc e
    obtain ⟨h1, h2⟩ := sq_origin hb
    obtain ⟨e1, _, _, e4, _⟩ := BM.absorb_spec { s with sq := q' } ev
    rw [e, e1, e4]
    refine ⟨fun x hx => ?_, fun y hy => ?_⟩
    · simp only [List.mem_append] at hx ⊢
      have : (x ∈ q'.q ∨ x ∈ BM.poppedItems ev) ∨ x ∈ s.hand := by tauto
      rcases this with hx | hx
      · rcases h1 x hx with h | ⟨t, h⟩ | ⟨t, h⟩
        · exact .inl (.inl h)
        · exact .inr ⟨t, .inl h⟩
        · exact .inr ⟨t, .inr (hc _ h)⟩
      · exact .inl (.inr hx)
    · rcases h2 y hy with h | h
      · exact .inl h
      · exact .inr (hc _ h)
  cases a with
  | publish t x pick =>
    simp only [BM.step] at h
    split at h
    · cases h
    · split at h
      · next q' ev' hq =>
        cases h
        refine q _ _ _ hq ?_ rfl
        intro y hy
        cases d
        · exact hy
        · exact hy
      · cases h
  | account t =>
    simp only [BM.step] at h
    split at h
    · cases h
    · cases h
      exact ⟨fun x hx => .inl hx, fun y hy => .inl hy⟩
  | poll tmo pick =>
    simp only [BM.step] at h
    split at h
    · cases h
    · split at h
      · next q' ev' hq => cases h; exact q _ _ _ hq nofun rfl
      · cases h
  | emit =>
    simp only [BM.step] at h
    split at h
    · cases h
    · next x r hx =>
      cases h
      refine ⟨fun x hx' => .inl ?_, fun y hy => .inl hy⟩
      rw [hx]
      simp only [List.mem_append, List.mem_cons] at hx' ⊢
      tauto
  | wake b =>
    simp only [BM.step] at h
    split at h
    · next hw =>
      split at h
      · next q' ev' hq =>
        cases h
        refine q _ _ _ hq ?_ rfl
        cases b <;> first | (simp [BM.isWake] at hw; done) | nofun
      · cases h
    · cases h

theorem mem_lawful (d : Bool) (n : Nat) : Lawful (memQ d n) (fun s => MemP.Reach d n s) (fun _ _ => True) where
  init := .init
  step := fun h _ hs => h.step hs
  held_init := rfl
  arg_init := by intro t x h; rcases h with h | h <;> cases h
  held_step := by
    intro s s' a _ _ hs x hx
    cases a with
    | bm b =>
      simp only [memQ, MemP.step] at hs
      split at hs
      · cases hs
      · split at hs
        · next b' ev hb =>
          cases hs
          exact (bm_origin hb).1 x hx
        · cases hs
    | throw =>
      simp only [memQ, MemP.step] at hs
      split at hs
      · split at hs
        · next y r hy =>
          cases hs
          left
          simp only [memQ, hy, List.mem_append, List.mem_cons] at hx ⊢
          tauto
        · cases hs
      · cases hs
    | restart =>
      simp only [memQ, MemP.step] at hs
      split at hs
      · cases hs
      · cases hs; exact .inl hx
  arg_step := by
    intro s s' a _ _ hs t x hx
    cases a with
    | bm b =>
      simp only [memQ, MemP.step] at hs
      split at hs
      · cases hs
      · split at hs
        · next b' ev hb =>
          cases hs
          exact (bm_origin hb).2 (t, x) hx
        · cases hs
    | throw =>
      simp only [memQ, MemP.step] at hs
      split at hs
      · split at hs
        · cases hs; exact .inl hx
        · cases hs
      · cases hs
    | restart =>
      simp only [memQ, MemP.step] at hs
      split at hs
      · cases hs
      · cases hs; exact .inl hx
  cur_held := by
    intro s x _ h
    simp only [memQ] at h ⊢
    exact List.mem_append_right _ (List.mem_of_mem_head? h)
  arg_busy := by
    intro s t x _ h
    simp only [memQ, decide_eq_true_eq]
    rcases h with h | h
    · exact .inl (List.mem_map.mpr ⟨_, h, rfl⟩)
    · exact .inr (.inl (List.mem_map.mpr ⟨_, h, rfl⟩))

/-! ### Concurrent queue -/

theorem cq_origin {d : Bool} {s s' : CQ.St Tag} {a : CQ.Act Tag} (h : CQ.step d s a = some s') :
    (∀ x, x ∈ s'.q ++ s'.hand → x ∈ s.q ++ s.hand ∨ ∃ t, ((∃ n, s.pc t = .enq x n) ∨ ∃ n, s.pc t = .rem x n) ∨ (concQ d).call (.cq a) = some (t, x)) ∧
      ∀ t x, ((∃ n, s'.pc t = .enq x n) ∨ ∃ n, s'.pc t = .rem x n) → ((∃ n, s.pc t = .enq x n) ∨ ∃ n, s.pc t = .rem x n) ∨
        (concQ d).call (.cq a) = some (t, x) := by
  have pcq : ∀ (u : Nat) (v : CQ.Pc Tag), s'.pc = upd s.pc u v →
      (∀ x, (∃ n, v = .enq x n) ∨ (∃ n, v = .rem x n) → ((∃ n, s.pc u = .enq x n) ∨ ∃ n, s.pc u = .rem x n) ∨ (concQ d).call (.cq a) = some (u, x)) →
      ∀ t x, ((∃ n, s'.pc t = .enq x n) ∨ ∃ n, s'.pc t = .rem x n) → ((∃ n, s.pc t = .enq x n) ∨ ∃ n, s.pc t = .rem x n) ∨
        (concQ d).call (.cq a) = some (t, x) := by
    intro u v e hv t x ht
    rw [e] at ht
    by_cases hu : t = u
    · subst hu; rw [upd_same] at ht; exact hv x ht
    · rw [upd_other _ _ hu] at ht; exact .inl ht
  cases a with
  | publish t x =>
    simp only [CQ.step] at h
    split at h
    · cases h
      refine ⟨fun _ hx => .inl hx, pcq t _ rfl ?_⟩
      rintro y (⟨n, e⟩ | ⟨n, e⟩) <;> cases e
      exact .inr rfl
    · cases h
  | enq t ok =>
    simp only [CQ.step] at h
    split at h
    · next x n hpc =>
      split at h
      · cases h
        refine ⟨fun y hy => ?_, pcq t _ rfl ?_⟩
        · simp only [List.mem_append, List.mem_singleton] at hy ⊢
          rcases hy with (hy | hy) | hy
          · exact .inl (.inl hy)
          · exact .inr ⟨t, .inl (.inl ⟨n, by rw [hy]; exact hpc⟩)⟩
          · exact .inl (.inr hy)
        · rintro y (⟨n, e⟩ | ⟨n, e⟩) <;> split at e <;> cases e
      · cases h
        refine ⟨fun _ hx => .inl hx, pcq t _ rfl ?_⟩
        rintro y (⟨n', e⟩ | ⟨n', e⟩) <;> split at e <;> cases e <;> exact .inl (.inl ⟨_, hpc⟩)
    · cases h
  | rem t seen =>
    simp only [CQ.step] at h
    split at h
    · next x n hpc =>
      split at h
      · next y q hq =>
        cases h
        refine ⟨fun z hz => .inl ?_, pcq t _ rfl ?_⟩
        · simp only [hq, List.mem_append, List.mem_cons] at hz ⊢; tauto
        · rintro y (⟨n', e⟩ | ⟨n', e⟩) <;> cases e; exact .inl (.inr ⟨_, hpc⟩)
      · cases h
        refine ⟨fun _ hx => .inl hx, pcq t _ rfl ?_⟩
        rintro y (⟨n', e⟩ | ⟨n', e⟩) <;> cases e; exact .inl (.inr ⟨_, hpc⟩)
    · cases h
  | account t =>
    simp only [CQ.step] at h
    split at h
    · cases h
      refine ⟨fun _ hx => .inl hx, pcq t _ rfl ?_⟩
      rintro y (⟨n', e⟩ | ⟨n', e⟩) <;> cases e
    · cases h
  | poll seen =>
    simp only [CQ.step] at h
    split at h
    · next y q hq1 hq =>
      cases h
      refine ⟨fun z hz => .inl ?_, fun _ _ h => .inl h⟩
      simp only [hq, List.mem_append, List.mem_cons] at hz ⊢; simp at hz; tauto
    · cases h; exact ⟨fun _ hx => .inl hx, fun _ _ h => .inl h⟩
    · cases h
  | emit =>
    simp only [CQ.step] at h
    split at h
    · next y r hy =>
      cases h
      refine ⟨fun z hz => .inl ?_, fun _ _ h => .inl h⟩
      simp only [List.append_nil] at hz
      exact List.mem_append_left _ hz
    · cases h

theorem conc_lawful (d : Bool) : Lawful (concQ d) (fun s => CqP.Reach d s) TokenOk where
  init := .init
  step := fun h hP hs => h.step hP hs
  held_init := rfl
  arg_init := by intro t x h; rcases h with ⟨_, h⟩ | ⟨_, h⟩ <;> cases h
  held_step := by
    intro s s' a _ _ hs x hx
    cases a with
    | cq b =>
      simp only [concQ, CqP.step] at hs
      split at hs
      · cases hs
      · split at hs
        · next c hb => cases hs; exact (cq_origin hb).1 x hx
        · cases hs
    | throw =>
      simp only [concQ, CqP.step] at hs
      split at hs
      · split at hs
        · next y r hy =>
          cases hs
          left
          simp only [concQ, List.append_nil] at hx ⊢
          exact List.mem_append_left _ hx
        · cases hs
      · cases hs
    | restart =>
      simp only [concQ, CqP.step] at hs
      split at hs
      · cases hs
      · cases hs; exact .inl hx
  arg_step := by
    intro s s' a _ _ hs t x hx
    cases a with
    | cq b =>
      simp only [concQ, CqP.step] at hs
      split at hs
      · cases hs
      · split at hs
        · next c hb => cases hs; exact (cq_origin hb).2 t x hx
        · cases hs
    | throw =>
      simp only [concQ, CqP.step] at hs
      split at hs
      · split at hs
        · cases hs; exact .inl hx
        · cases hs
      · cases hs
    | restart =>
      simp only [concQ, CqP.step] at hs
      split at hs
      · cases hs
      · cases hs; exact .inl hx
  cur_held := by
    intro s x _ h
    simp only [concQ] at h ⊢
    exact List.mem_append_right _ (List.mem_of_mem_head? h)
  arg_busy := by
    intro s t x _ h
    rcases h with ⟨_, h⟩ | ⟨_, h⟩ <;> simp [concQ, h]

theorem Lawful.strong {D : Type} {C : Chan D} {R : C.S → Prop} {P Q : C.S → C.A → Prop} (L : Lawful C R P) (h : ∀ s a, Q s a → P s a) : Lawful C R Q where
  init := L.init
  step := fun hr hq hs => L.step hr (h _ _ hq) hs
  held_init := L.held_init
  arg_init := L.arg_init
  held_step := fun hr hq hs => L.held_step hr (h _ _ hq) hs
  arg_step := fun hr hq hs => L.arg_step hr (h _ _ hq) hs
  cur_held := L.cur_held
  arg_busy := L.arg_busy

/-! ### What the middleware holds at most -/

theorem mem_q_le {d : Bool} {n : Nat} (hn : d = true → 0 < n) {s : MemP.St Tag} (h : MemP.Reach d n s) : s.bm.sq.q.length ≤ n := by
  induction h with
  | init => exact Nat.zero_le _
  | @step s s' a h0 hs ih =>
    have hi := h0.inv
    cases MemP.step_eff hs with
    | queue ha hb hturn hh hpub hpush hem e =>
      rename_i b q' ev
      subst e
      have e1 := (BM.absorb_spec { s.bm with sq := q' } ev).1
      simp only [e1]
      by_cases hpos : 0 < n
      · have := SQ.step_len (by rw [hi.max]; exact hpos) hb
        rw [hi.max] at this
        omega
      · have hd : d = false := by cases d; rfl; exact absurd (hn rfl) hpos
        have hz : s.bm.sq.max = 0 := by rw [hi.max]; omega
        have hq : s.bm.sq.q = [] := List.length_eq_zero_iff.mp (by omega)
        have := SQ.step_flow hb
        rw [hq] at this
        change [] ++ SQ.putIn ev = _ at this
        have hp : SQ.putIn ev = [] := by
          cases b with
          | call t op pick =>
            subst hd
            cases op with
            | push x => sq_cases hb <;> simp_all [SQ.putIn]
            | tryPush x => exact absurd ha id
            | forcePush x => exact absurd ha.1 (by simp)
            | pop => exact absurd ha id
            | tryPop => exact absurd ha id
            | timedPop tmo => sq_cases hb <;> simp_all [SQ.putIn, SQ.Ev.ins]
          | spuriousNE i => sq_cases hb <;> simp_all [SQ.putIn, SQ.Ev.ins]
          | expireNE i => sq_cases hb <;> simp_all [SQ.putIn, SQ.Ev.ins]
          | spuriousNF i => sq_cases hb <;> simp_all [SQ.putIn, SQ.Ev.ins]
          | resumeNE i late pick => sq_cases hb <;> simp_all [SQ.putIn, SQ.Ev.ins]
          | resumeNF i pick => sq_cases hb <;> simp_all [SQ.putIn, SQ.Ev.ins]
          | setMax m => exact absurd ha id
        rw [hp] at this
        have h2 := congrArg List.length this
        simp at h2
        omega
    | account hx e => subst e; exact ih
    | emit hx e => subst e; exact ih
    | throw hx e => subst e; exact ih
    | restart e => subst e; exact ih

theorem conc_hand {d : Bool} {s : CqP.St Tag} (h : CqP.Reach d s) : s.cq.hand.length ≤ 1 := by
  induction h with
  | init => exact Nat.zero_le _
  | @step s s' a h0 _ hs ih =>
    cases a with
    | cq b =>
      simp only [CqP.step] at hs
      split at hs
      · cases hs
      · split at hs
        · next c hb =>
          cases hs
          cases b <;> simp only [CQ.step] at hb <;> (repeat' split at hb) <;> first | (cases hb; done) | (cases hb; first | exact ih | simp)
        · cases hs
    | throw =>
      simp only [CqP.step] at hs
      (repeat' split at hs) <;> first | (cases hs; done) | (cases hs; simp)
    | restart =>
      simp only [CqP.step] at hs
      (repeat' split at hs) <;> first | (cases hs; done) | (cases hs; exact ih)

theorem conc_q_le {d : Bool} {B : Nat} {s : (concQ d).S} (h : CReach (concQ d) (TokenBound B) s) : (s : CqP.St Tag).cq.q.length ≤ B := by
  induction h with
  | init => exact Nat.zero_le _
  | @step s s' a h0 hP hs ih =>
    have hP2 := hP.2
    cases a with
    | cq b =>
      simp only [concQ, CqP.step] at hs
      split at hs
      · cases hs
      · split at hs
        · next c hb =>
          cases hs
          cases b with
          | enq t ok =>
            simp only [CQ.step] at hb
            split at hb
            · split at hb
              · next hok =>
                subst hok
                have := hP2 t rfl
                cases hb
                simp only [List.length_append, List.length_singleton]
                omega
              · cases hb; exact ih
            · cases hb
          | rem t seen =>
            simp only [CQ.step] at hb
            (repeat' split at hb) <;> first | (cases hb; done) | (cases hb; exact ih) | (cases hb; simp_all; omega)
          | poll seen =>
            simp only [CQ.step] at hb
            (repeat' split at hb) <;> first | (cases hb; done) | (cases hb; exact ih) | (cases hb; simp_all; omega)
          | publish t x => simp only [CQ.step] at hb; (repeat' split at hb) <;> first | (cases hb; done) | (cases hb; exact ih)
          | account t => simp only [CQ.step] at hb; (repeat' split at hb) <;> first | (cases hb; done) | (cases hb; exact ih)
          | emit => simp only [CQ.step] at hb; (repeat' split at hb) <;> first | (cases hb; done) | (cases hb; exact ih)
        · cases hs
    | throw =>
      simp only [concQ, CqP.step] at hs
      (repeat' split at hs) <;> first | (cases hs; done) | (cases hs; exact ih)
    | restart =>
      simp only [concQ, CqP.step] at hs
      (repeat' split at hs) <;> first | (cases hs; done) | (cases hs; exact ih)

/-! ### The slots of the event loop -/

theorem ev_reach {k : Nat} {P : (evLoop k).S → (evLoop k).A → Prop} (hP : ∀ s a, P s a → LoopOk s a) {s : (evLoop k).S} (h : CReach (evLoop k) P s) :
    EvLoop.Reach k (fun _ _ => True) s := by
  induction h with
  | init => exact .init
  | step _ hp hs ih => exact ih.step trivial (hP _ _ hp) hs

theorem started_gating' {k : Nat} {P : EvLoop.St Tag → EvLoop.Act Tag → Prop} {s : EvLoop.St Tag} (h : EvLoop.Reach k P s) (hs : s.started = true) :
    0 ∈ s.ring.gating := EvLoop.started_gating h hs

open EvLoop in
/-- Only events the loop has not dealt with are in the slots. -/
structure Clean (k : Nat) (s : EvLoop.St Tag) : Prop where
  g0 : 0 ∉ s.ring.gating → s.ring.seq 0 = -1 ∧ s.ring.cp 0 = .idle
  un : ∀ i, s.cleared i = false → ∃ x, Disr.slotIdx k x = i ∧ mark s < x ∧ x ≤ s.ring.cursor

open EvLoop in
theorem Clean.step {k : Nat} (hk : k ≤ 30) {s s' : EvLoop.St Tag} {a : EvLoop.Act Tag} (h : Clean k s) (hr : EvLoop.Reach k (fun _ _ => True) s)
    (hc : LoopCalm (k := k) s a) (hs : EvLoop.step k s a = some s') : Clean k s' := by
  have hi := hr.inv hk
  have hl := hr.lInv hk
  obtain ⟨_, hnt, hst⟩ := hc
  have hgat : s.ring.cp 0 ≠ .idle → 0 ∈ s.ring.gating := fun h1 => by
    apply Classical.byContradiction; intro h2; exact h1 (h.g0 h2).2
  have same : s'.ring.gating = s.ring.gating → s'.ring.seq = s.ring.seq → s'.ring.cp = s.ring.cp → s'.cleared = s.cleared → s.ring.cursor ≤ s'.ring.cursor →
      Clean k s' := by
    intro h1 h2 h3 h4 h5
    refine ⟨fun hg => ?_, fun i hci => ?_⟩
    · rw [h1] at hg; rw [h2, h3]; exact h.g0 hg
    · rw [h4] at hci
      obtain ⟨x, a, b, c⟩ := h.un i hci
      refine ⟨x, a, ?_, by omega⟩
      simp only [mark, h2, h3]; exact b
  cases step_eff hr.pcInv hs with
  | call p t d h1 e => exact same (by rw [e]) (by rw [e]) (by rw [e]) (by rw [e]) (by rw [e])
  | got p t d h1 h2 e => exact same (by rw [e]; rfl) (by rw [e]; rfl) (by rw [e]; rfl) (by rw [e]) (by rw [e]; simp [MRing.claim])
  | refused p t d m h1 e => exact same (by rw [e]) (by rw [e]) (by rw [e]) (by rw [e]) (by rw [e])
  | more p t d m pc' h1 h2 h3 e => exact same (by rw [e]) (by rw [e]) (by rw [e]) (by rw [e]) (by rw [e])
  | weak p t d cur h1 h2 e => exact same (by rw [e]) (by rw [e]) (by rw [e]) (by rw [e]) (by rw [e])
  | publish p t d x h1 h2 e => exact same (by rw [e]) (by rw [e]) (by rw [e]) (by rw [e]) (by rw [e])
  | lookNone nx h2 h3 e => rw [e]; exact h
  | write p t d x h1 h2 e =>
    have hm : mark s' = mark s := by rw [e]; rfl
    have hx : mark s < x := by
      by_cases hg : 0 ∈ s.ring.gating
      · have h3 := hi.cons 0 hg
        have h4 := hi.own_gt x p h2 0 hg
        unfold mark
        split
        · next nx av hcp =>
          rw [hcp] at h3
          obtain ⟨a, b, c, d⟩ := h3
          by_cases hxa : x ≤ av
          · have := d x h4 hxa; rw [h2] at this; cases this
          · omega
        · next nx av hcp =>
          rw [hcp] at h3
          obtain ⟨a, b, c, d⟩ := h3
          by_cases hxa : x ≤ av
          · have := d x h4 hxa; rw [h2] at this; cases this
          · omega
        · exact h4
      · obtain ⟨h3, h4⟩ := h.g0 hg
        have := (hi.own_rng x p h2).1
        simp only [mark, h4]; omega
    refine ⟨?_, fun i hci => ?_⟩
    · rw [e]; exact h.g0
    · rw [hm]
      by_cases hix : i = Disr.slotIdx k x
      · exact ⟨x, hix.symm, hx, by rw [e]; exact (hi.own_rng x p h2).2⟩
      · rw [e] at hci ⊢
        simp only [upd_other _ _ hix] at hci
        exact h.un i hci
  | start h1 e =>
    have hq := hst rfl
    have hidle := hr.stopped h1
    refine ⟨fun hg => ?_, fun i hci => ?_⟩
    · rw [e] at hg; simp at hg
    · rw [e] at hci
      obtain ⟨x, a, b, c⟩ := h.un i hci
      simp only [mark, hidle] at b
      omega
  | run h1 h2 e =>
    refine ⟨fun hg => ?_, fun i hci => ?_⟩
    · rw [e] at hg
      exact absurd (started_gating' hr h1) hg
    · rw [e] at hci ⊢
      obtain ⟨x, a, b, c⟩ := h.un i hci
      simp only [mark, h2] at b
      exact ⟨x, a, by simpa [mark] using b, c⟩
  | look nx h2 h3 e =>
    have hg := hgat (by rw [h2]; simp)
    refine ⟨fun hg' => ?_, fun i hci => ?_⟩
    · rw [e] at hg'; exact absurd hg hg'
    · rw [e] at hci ⊢
      obtain ⟨x, a, b, c⟩ := h.un i hci
      simp only [mark, h2] at b
      exact ⟨x, a, by simpa [mark] using b, c⟩
  | scan nx hi' i' pc' h2 h3 e =>
    have hg := hgat (by rw [h2]; simp)
    refine ⟨fun hg' => ?_, fun i hci => ?_⟩
    · rw [e] at hg'; exact absurd hg hg'
    · rw [e] at hci ⊢
      obtain ⟨x, a, b, c⟩ := h.un i hci
      simp only [mark, h2] at b
      have hc0 := hi.cons 0 hg
      rw [h2] at hc0
      rcases h3 with h3 | ⟨av, h3⟩
      · exact ⟨x, a, by simpa [mark, h3] using b, c⟩
      · refine ⟨x, a, ?_, c⟩
        have := hc0.1
        simp only [mark, h3, upd_same]
        omega
  | event nx av h2 h3 e =>
    have hg := hgat (by rw [h2]; simp)
    refine ⟨fun hg' => ?_, fun i hci => ?_⟩
    · rw [e] at hg'; exact absurd hg hg'
    · rw [e] at hci ⊢
      obtain ⟨x, a, b, c⟩ := h.un i hci
      simp only [mark, h2] at b
      exact ⟨x, a, by simpa [mark] using b, c⟩
  | batchEnd nx av h2 h3 e =>
    have hg := hgat (by rw [h2]; simp)
    refine ⟨fun hg' => ?_, fun i hci => ?_⟩
    · rw [e] at hg'; exact absurd hg hg'
    · rw [e] at hci ⊢
      obtain ⟨x, a, b, c⟩ := h.un i hci
      simp only [mark, h2] at b
      refine ⟨x, a, ?_, c⟩
      simp only [mark, upd_same]
      omega
  | finish nx av h2 e =>
    have hg := hgat (by rw [h2]; simp)
    refine ⟨fun hg' => ?_, fun i hci => ?_⟩
    · rw [e] at hg'; exact absurd hg hg'
    · rw [e] at hci ⊢
      have hix : i ≠ Disr.slotIdx k nx := by
        rintro rfl; simp [upd_same] at hci
      simp only [upd_other _ _ hix] at hci
      obtain ⟨x, a, b, c⟩ := h.un i hci
      simp only [mark, h2] at b
      have : x ≠ nx := by rintro rfl; exact hix a.symm
      refine ⟨x, a, ?_, c⟩
      simp only [mark, upd_same]
      omega
  | throw nx av h2 e => exact absurd rfl hnt
  | stop nx h1 h2 e =>
    have hg := hgat (by rw [h2]; simp)
    refine ⟨fun hg' => ?_, fun i hci => ?_⟩
    · rw [e] at hg'; exact absurd hg hg'
    · rw [e] at hci ⊢
      obtain ⟨x, a, b, c⟩ := h.un i hci
      simp only [mark, h2] at b
      exact ⟨x, a, by simpa [mark] using b, c⟩

theorem ev_clean {k : Nat} (hk : k ≤ 30) {s : (evLoop k).S} (h : CReach (evLoop k) LoopCalm s) : Clean k s := by
  induction h with
  | init => exact ⟨fun _ => ⟨rfl, rfl⟩, fun i hi => by cases hi⟩
  | step h0 hp hs ih => exact ih.step hk (ev_reach (fun _ _ h => h.1) h0) hp hs

/-- The loop has nothing left to do: no slot holds an event. -/
theorem ev_empty {k : Nat} (hk : k ≤ 30) {s : EvLoop.St Tag} (h : CReach (evLoop k) LoopCalm s) {nx : Int} (hw : s.ring.cp 0 = .wait nx)
    (hn : s.ring.cursor < nx) : (evLoop k).held s = [] := by
  have hc := ev_clean hk h
  have hi := (ev_reach (fun _ _ h => h.1) h).inv hk
  have hg : 0 ∈ s.ring.gating := by
    apply Classical.byContradiction; intro h2; have := (hc.g0 h2).2; rw [hw] at this; cases this
  have h1 := hi.cons 0 hg
  rw [hw] at h1
  have h1 : nx = s.ring.seq 0 + 1 := h1
  apply List.eq_nil_iff_forall_not_mem.mpr
  intro d hd
  obtain ⟨i, t, hi', hcl, _⟩ := mem_slots.mp hd
  obtain ⟨x, a, b, c⟩ := hc.un i hcl
  simp only [EvLoop.mark, hw] at b
  omega

end Verif.RefP
