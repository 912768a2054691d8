import Verif.Spec.MemLive
import Verif.Lemmas.BasicMiddleware
import Verif.Lemmas.Fair
import Mathlib.Tactic.ByContra

/-! Progress of the in-memory middleware. -/

namespace Verif.MemP
open Verif Verif.SQ Verif.Fair

variable {T : Type}

/-- What a step of the queue in the middleware is. -/
def Allowed (d : Bool) : SQ.Act T → Prop
  | .call t (.push _) _ => d = false ∧ t ≠ 0
  | .call t (.forcePush _) _ => d = true ∧ t ≠ 0
  | .call t (.timedPop _) _ => t = 0
  | .call _ _ _ => False
  | .setMax _ => False
  | _ => True

/-- Only the poller waits for events; whoever waits for room has no room or somebody woken before. -/
structure QInv (s : SQ.St T) : Prop where
  wne : ∀ x ∈ s.wne, x = ⟨0, true⟩
  kne : ∀ x ∈ s.kne, x.1 = ⟨0, true⟩
  one : s.wne.length + s.kne.length ≤ 1
  nf : s.wnf ≠ [] → s.max ≤ s.q.length + s.knf.length

theorem QInv.notifyNE {s : SQ.St T} (h : QInv s) (p : Nat) : QInv (SQ.notifyNE s p) := by
  unfold SQ.notifyNE
  split
  · exact h
  · next c hc =>
    have h1 := length_eraseIdx' hc
    refine ⟨fun x hx => h.wne x (List.mem_of_mem_eraseIdx hx), fun x hx => ?_, ?_, h.nf⟩
    · rcases List.mem_append.mp hx with hx | hx
      · exact h.kne x hx
      · simp at hx; subst hx; exact h.wne c (List.mem_of_getElem? hc)
    · have := h.one
      simp only [List.length_append, List.length_singleton]; omega

theorem QInv.app {s : SQ.St T} (h : QInv s) (q : List T) (hq : s.wnf ≠ [] → s.max ≤ q.length + s.knf.length) : QInv { s with q := q } :=
  ⟨h.wne, h.kne, h.one, hq⟩

theorem QInv.notifyNF {s : SQ.St T} (h1 : ∀ x ∈ s.wne, x = ⟨0, true⟩) (h2 : ∀ x ∈ s.kne, x.1 = ⟨0, true⟩) (h3 : s.wne.length + s.kne.length ≤ 1)
    (h4 : s.wnf ≠ [] → s.max ≤ s.q.length + s.knf.length + 1) (p : Nat) : QInv (SQ.notifyNF s p) := by
  unfold SQ.notifyNF
  split
  · next hn => exact ⟨h1, h2, h3, fun hw => absurd (mod_getElem?_none hn) hw⟩
  · next c hc =>
    refine ⟨h1, h2, h3, fun hw => ?_⟩
    have := h4 (ne_nil_of_eraseIdx hw)
    simp only [List.length_append, List.length_singleton]; omega

theorem QInv.step {d : Bool} {s s' : SQ.St T} {b : SQ.Act T} {ev : List (Ev T)} (h : QInv s) (ha : Allowed d b)
    (hs : SQ.step s b = .ok s' ev) : QInv s' := by
  cases b with
  | call t op pick =>
    simp only [SQ.step] at hs
    split at hs
    · cases hs
    next hb =>
    cases op with
    | push x =>
      simp only [bodyPush] at hs
      split at hs <;> cases hs
      · exact (h.app _ (fun hw => by have := h.nf hw; simp; omega)).notifyNE _
      · exact ⟨h.wne, h.kne, h.one, fun _ => by dsimp only; omega⟩
    | forcePush x =>
      simp only [bodyForcePush] at hs
      cases hs
      refine (h.app _ (fun hw => ?_)).notifyNE _
      have := h.nf hw
      rcases Nat.eq_zero_or_pos s.max with hm | hm
      · omega
      · have := dropOld_len s.max hm s.q
        simp; omega
    | timedPop to =>
      have hi : s.wne = [] ∧ s.kne = [] := by
        subst ha
        constructor
        · cases hw : s.wne with
          | nil => rfl
          | cons a l => exact absurd (Or.inl (by rw [hw]; simp [h.wne a (by simp [hw])])) hb
        · cases hw : s.kne with
          | nil => rfl
          | cons a l => exact absurd (Or.inr (Or.inl (by rw [hw]; simp [h.kne a (by simp [hw])]))) hb
      simp only [bodyTimedPop] at hs
      split at hs
      · split at hs <;> cases hs
        · exact h
        · refine ⟨fun x hx => ?_, h.kne, by simp [hi.1, hi.2], h.nf⟩
          simp [hi.1] at hx; rw [hx, ha]
      · unfold takeFront at hs
        split at hs <;> cases hs
        next x q hq =>
        exact QInv.notifyNF (s := { s with q := q }) h.wne h.kne h.one (fun hw => by have := h.nf hw; rw [hq] at this; simp at this ⊢; omega) _
    | tryPush x => exact absurd ha id
    | pop => exact absurd ha id
    | tryPop => exact absurd ha id
  | setMax m => exact absurd ha id
  | spuriousNE i =>
    simp only [SQ.step] at hs
    split at hs <;> cases hs
    next c hc =>
    have h1 := length_eraseIdx' hc
    refine ⟨fun x hx => h.wne x (List.mem_of_mem_eraseIdx hx), fun x hx => ?_, ?_, h.nf⟩
    · rcases List.mem_append.mp hx with hx | hx
      · exact h.kne x hx
      · simp at hx; subst hx; exact h.wne c (List.mem_of_getElem? hc)
    · have := h.one
      simp only [List.length_append, List.length_singleton]; omega
  | expireNE i =>
    simp only [SQ.step] at hs
    split at hs
    · cases hs
    next c hc =>
    split at hs <;> cases hs
    have h1 := length_eraseIdx' hc
    refine ⟨fun x hx => h.wne x (List.mem_of_mem_eraseIdx hx), fun x hx => ?_, ?_, h.nf⟩
    · rcases List.mem_append.mp hx with hx | hx
      · exact h.kne x hx
      · simp at hx; subst hx; exact h.wne c (List.mem_of_getElem? hc)
    · have := h.one
      simp only [List.length_append, List.length_singleton]; omega
  | spuriousNF i =>
    simp only [SQ.step] at hs
    split at hs <;> cases hs
    refine ⟨h.wne, h.kne, h.one, fun hw => ?_⟩
    have := h.nf (ne_nil_of_eraseIdx hw)
    simp only [List.length_append, List.length_singleton]; omega
  | resumeNE i late pick =>
    simp only [SQ.step] at hs
    split at hs
    · cases hs
    next c why hc =>
    have h0 := h.kne _ (List.mem_of_getElem? hc)
    have h1 := length_eraseIdx' hc
    have hone := h.one
    simp only at h0
    subst h0
    have hk : QInv { s with kne := s.kne.eraseIdx i } := ⟨h.wne, fun x hx => h.kne x (List.mem_of_mem_eraseIdx hx), by dsimp only; omega, h.nf⟩
    simp only [bodyResumeNE, if_true] at hs
    split at hs
    · cases hs; exact hk
    · unfold takeFront at hs
      split at hs <;> cases hs
      next x q hq =>
      exact QInv.notifyNF (s := { s with kne := s.kne.eraseIdx i, q := q }) hk.wne hk.kne hk.one
        (fun hw => by have := h.nf hw; simp only at hq; rw [hq] at this; simp at this ⊢; omega) _
  | resumeNF i pick =>
    simp only [SQ.step] at hs
    split at hs
    · cases hs
    next t x hc =>
    have h1 := length_eraseIdx' hc
    simp only [bodyPush] at hs
    split at hs <;> cases hs
    · refine QInv.notifyNE (s := { s with q := s.q ++ [x], knf := s.knf.eraseIdx i }) ⟨h.wne, h.kne, h.one, fun hw => ?_⟩ _
      have := h.nf hw
      simp; omega
    · next hl => exact ⟨h.wne, h.kne, h.one, fun _ => by dsimp only at hl ⊢; omega⟩

theorem sq_max {d : Bool} {s s' : SQ.St T} {b : SQ.Act T} {ev : List (Ev T)} (ha : Allowed d b) (hs : SQ.step s b = .ok s' ev) : s'.max = s.max := by
  have := step_max hs
  cases b <;> first | exact this | exact absurd ha id

/-- Where the poller is: 3 waiting, 2 woken, 1 outside the queue. -/
def crank (s : SQ.St T) : Nat := if s.wne ≠ [] then 3 else if s.kne ≠ [] then 2 else 1

theorem crank_notifyNE (s : SQ.St T) (p : Nat) (h : QInv s) : crank (SQ.notifyNE s p) ≤ crank s := by
  unfold SQ.notifyNE
  split
  · exact Nat.le_refl _
  · next c hc =>
    have h1 := length_eraseIdx' hc
    have h2 := h.one
    have h3 : s.wne.eraseIdx (p % s.wne.length) = [] := List.eq_nil_of_length_eq_zero (by omega)
    have h4 : s.wne ≠ [] := by intro e; rw [e] at hc; simp at hc
    simp [crank, h3, h4]

@[simp] theorem crank_notifyNF (s : SQ.St T) (p : Nat) : crank (SQ.notifyNF s p) = crank s := by
  unfold SQ.notifyNF; split <;> rfl

/-- A step of the poller in the queue. -/
def QTurn : SQ.Act T → Prop
  | .call _ (.timedPop _) _ | .expireNE _ | .resumeNE .. => True
  | _ => False

theorem sq_other {d : Bool} {s s' : SQ.St T} {b : SQ.Act T} {ev : List (Ev T)} (h : QInv s) (ha : Allowed d b) (hn : ¬ QTurn b)
    (hs : SQ.step s b = .ok s' ev) : crank s' ≤ crank s ∧ BM.poppedItems ev = [] := by
  cases b with
  | call t op pick =>
    simp only [SQ.step] at hs
    split at hs
    · cases hs
    cases op with
    | push x =>
      simp only [bodyPush] at hs
      split at hs <;> cases hs
      · exact ⟨crank_notifyNE (T := T) _ _ ⟨h.wne, h.kne, h.one, fun hw => by have := h.nf hw; simp; omega⟩, rfl⟩
      · exact ⟨Nat.le_refl _, rfl⟩
    | forcePush x =>
      simp only [bodyForcePush] at hs
      cases hs
      refine ⟨?_, by simp [BM.poppedItems_append, BM.poppedItems_map_discarded, BM.poppedItems]⟩
      unfold SQ.notifyNE
      split
      · exact Nat.le_refl _
      · next c hc =>
        have h1 := length_eraseIdx' hc
        have h2 := h.one
        simp only at hc h1
        have h3 : s.wne.eraseIdx (pick % s.wne.length) = [] := List.eq_nil_of_length_eq_zero (by omega)
        have h4 : s.wne ≠ [] := by intro e; rw [e] at hc; simp at hc
        simp [crank, h3, h4]
    | timedPop to => exact absurd trivial hn
    | tryPush x => exact absurd ha id
    | pop => exact absurd ha id
    | tryPop => exact absurd ha id
  | setMax m => exact absurd ha id
  | spuriousNE i =>
    simp only [SQ.step] at hs
    split at hs <;> cases hs
    next c hc =>
    have h1 := length_eraseIdx' hc
    have h2 := h.one
    have h3 : s.wne.eraseIdx i = [] := List.eq_nil_of_length_eq_zero (by omega)
    have h4 : s.wne ≠ [] := by intro e; rw [e] at hc; simp at hc
    simp [crank, h3, h4, BM.poppedItems]
  | expireNE i => exact absurd trivial hn
  | spuriousNF i =>
    simp only [SQ.step] at hs
    split at hs <;> cases hs
    exact ⟨Nat.le_refl _, rfl⟩
  | resumeNE i late pick => exact absurd trivial hn
  | resumeNF i pick =>
    simp only [SQ.step] at hs
    split at hs
    · cases hs
    next t x hc =>
    have h1 := length_eraseIdx' hc
    simp only [bodyPush] at hs
    split at hs <;> cases hs
    · refine ⟨Nat.le_trans (crank_notifyNE (T := T) _ _ ⟨h.wne, h.kne, h.one, fun hw => ?_⟩) (Nat.le_refl _), rfl⟩
      have := h.nf hw
      simp; omega
    · exact ⟨Nat.le_refl _, rfl⟩

/-- What the poller does in the queue. -/
theorem sq_turn {d : Bool} {s s' : SQ.St T} {b : SQ.Act T} {ev : List (Ev T)} (h : QInv s) (ha : Allowed d b) (hn : QTurn b)
    (hs : SQ.step s b = .ok s' ev) :
    (∃ x, s.q = x :: s'.q ∧ ev = [.popped 0 x] ∧ crank s' = 1 ∧ (crank s = 1 ∨ crank s = 2)) ∨
    (BM.poppedItems ev = [] ∧ s'.q = s.q ∧ (crank s' < crank s ∨ s.q = []) ∧ (crank s' ≠ 1 → crank s = 1 → s.q = [])) := by
  cases b with
  | call t op pick =>
    cases op <;> try exact absurd hn id
    next to =>
    have ha : t = 0 := ha
    subst ha
    simp only [SQ.step] at hs
    split at hs
    · cases hs
    next hb =>
    have hi : s.wne = [] ∧ s.kne = [] := by
      constructor
      · cases hw : s.wne with
        | nil => rfl
        | cons a l => exact absurd (Or.inl (by rw [hw]; simp [h.wne a (by simp [hw])])) hb
      · cases hw : s.kne with
        | nil => rfl
        | cons a l => exact absurd (Or.inr (Or.inl (by rw [hw]; simp [h.kne a (by simp [hw])]))) hb
    simp only [bodyTimedPop] at hs
    split at hs
    · next hq =>
      right
      split at hs <;> cases hs
      · exact ⟨rfl, rfl, Or.inr hq, fun _ _ => hq⟩
      · exact ⟨rfl, rfl, Or.inr hq, fun _ _ => hq⟩
    · left
      unfold takeFront at hs
      split at hs <;> cases hs
      next x q hq =>
      exact ⟨x, by simp [hq], rfl, by rw [crank_notifyNF]; simp [crank, hi.1, hi.2], Or.inl (by simp [crank, hi.1, hi.2])⟩
  | expireNE i =>
    simp only [SQ.step] at hs
    split at hs
    · cases hs
    next c hc =>
    split at hs <;> cases hs
    have h1 := length_eraseIdx' hc
    have h2 := h.one
    have h3 : s.wne.eraseIdx i = [] := List.eq_nil_of_length_eq_zero (by omega)
    have h4 : s.wne ≠ [] := by intro e; rw [e] at hc; simp at hc
    right
    simp [crank, h3, h4, BM.poppedItems]
  | resumeNE i late pick =>
    simp only [SQ.step] at hs
    split at hs
    · cases hs
    next c why hc =>
    have h0 := h.kne _ (List.mem_of_getElem? hc)
    have h1 := length_eraseIdx' hc
    have hone := h.one
    simp only at h0
    subst h0
    have h3 : s.kne.eraseIdx i = [] := List.eq_nil_of_length_eq_zero (by omega)
    have h4 : s.kne ≠ [] := by intro e; rw [e] at hc; simp at hc
    have h5 : s.wne = [] := List.eq_nil_of_length_eq_zero (by omega)
    simp only [bodyResumeNE, if_true] at hs
    split at hs
    · cases hs
      right
      simp [crank, h3, h4, h5, BM.poppedItems]
    · left
      unfold takeFront at hs
      split at hs <;> cases hs
      next x q hq =>
      exact ⟨x, by simpa using hq, rfl, by rw [crank_notifyNF]; simp [crank, h3, h5], Or.inr (by simp [crank, h4, h5])⟩
  | setMax m => exact absurd hn id
  | spuriousNE i => exact absurd hn id
  | spuriousNF i => exact absurd hn id
  | resumeNF i pick => exact absurd hn id

/-- Number of publishers inside a blocking `publish`. -/
def wcount (s : SQ.St T) : Nat := s.wnf.length + s.knf.length

@[simp] theorem wcount_notifyNE (s : SQ.St T) (p : Nat) : wcount (SQ.notifyNE s p) = wcount s := by simp [wcount]

@[simp] theorem wcount_notifyNF (s : SQ.St T) (p : Nat) : wcount (SQ.notifyNF s p) = wcount s := by
  unfold SQ.notifyNF
  split
  · rfl
  · next c hc =>
    have := length_eraseIdx' hc
    simp [wcount]; omega

/-- Is it a call of `publish`? -/
def isPush : SQ.Act T → Nat
  | .call _ (.push _) _ => 1
  | _ => 0

theorem sq_wcount {s s' : SQ.St T} {b : SQ.Act T} {ev : List (Ev T)} (ha : Allowed false b)
    (hs : SQ.step s b = .ok s' ev) : wcount s' + (putIn ev).length = wcount s + isPush b := by
  cases b with
  | call t op pick =>
    simp only [SQ.step] at hs
    split at hs
    · cases hs
    cases op with
    | push x =>
      simp only [bodyPush] at hs
      split at hs <;> cases hs
      · simp [isPush, putIn, Ev.ins]; rfl
      · simp [isPush, putIn, Ev.ins, wcount]; omega
    | forcePush x => exact absurd ha.1 (by decide)
    | timedPop to =>
      simp only [bodyTimedPop, takeFront] at hs
      repeat' split at hs
      all_goals first | (cases hs; done) | (cases hs; simp [isPush, putIn, Ev.ins]; try rfl)
    | tryPush x => exact absurd ha id
    | pop => exact absurd ha id
    | tryPop => exact absurd ha id
  | setMax m => exact absurd ha id
  | spuriousNE i =>
    simp only [SQ.step] at hs
    split at hs <;> cases hs
    rfl
  | expireNE i =>
    simp only [SQ.step] at hs
    split at hs
    · cases hs
    split at hs <;> cases hs
    rfl
  | spuriousNF i =>
    simp only [SQ.step] at hs
    split at hs <;> cases hs
    next c hc =>
    have := length_eraseIdx' hc
    simp [isPush, putIn, wcount]; omega
  | resumeNE i late pick =>
    simp only [SQ.step] at hs
    split at hs
    · cases hs
    simp only [bodyResumeNE, bodyPop, takeFront] at hs
    repeat' split at hs
    all_goals first | (cases hs; done) | (cases hs; simp [isPush, putIn, Ev.ins]; try rfl)
  | resumeNF i pick =>
    simp only [SQ.step] at hs
    split at hs
    · cases hs
    next t x hc =>
    have h1 := length_eraseIdx' hc
    simp only [bodyPush] at hs
    split at hs <;> cases hs
    · simp [isPush, putIn, Ev.ins, wcount]; omega
    · simp [isPush, putIn, Ev.ins, wcount]; omega

/-- A woken publisher that finds room puts its event in. -/
theorem sq_resumeNF {s s' : SQ.St T} {i p : Nat} {ev : List (Ev T)} (hl : s.q.length < s.max) (hs : SQ.step s (.resumeNF i p) = .ok s' ev) :
    putIn ev ≠ [] := by
  simp only [SQ.step] at hs
  split at hs
  · cases hs
  simp only [bodyPush] at hs
  split at hs <;> cases hs
  · simp [putIn, Ev.ins]
  · next hn => exact absurd hl hn

/-- Woken publishers stay woken until one of them gets the mutex. -/
theorem sq_knf {s s' : SQ.St T} {b : SQ.Act T} {ev : List (Ev T)} (hb : ∀ i p, b ≠ .resumeNF i p) (hk : s.knf ≠ [])
    (hs : SQ.step s b = .ok s' ev) : s'.knf ≠ [] := by
  have hnf : ∀ (u : SQ.St T) (p : Nat), u.knf ≠ [] → (SQ.notifyNF u p).knf ≠ [] := by
    intro u p hu
    unfold SQ.notifyNF
    split
    · exact hu
    · simp
  cases b <;> sq_cases hs <;> first | exact hk | (simp only [notifyNE_knf]; exact hk) | (apply hnf; exact hk) | (simp; done) | exact absurd rfl (hb _ _)

theorem crank_wake {s s' : SQ.St T} {b : SQ.Act T} {ev : List (Ev T)} (hb : BM.isWake b = true) (hq : QTurn b) (hs : SQ.step s b = .ok s' ev) :
    2 ≤ crank s := by
  cases b with
  | call => cases hb
  | setMax => cases hb
  | expireNE i =>
    simp only [SQ.step] at hs
    split at hs
    · cases hs
    · next c hc =>
      have : s.wne ≠ [] := by intro e; rw [e] at hc; simp at hc
      simp [crank, this]
  | resumeNE i l p =>
    simp only [SQ.step] at hs
    split at hs
    · cases hs
    · next c why hc =>
      have : s.kne ≠ [] := by intro e; rw [e] at hc; simp at hc
      unfold crank
      split
      · omega
      · simp [this]
  | spuriousNE => exact absurd hq id
  | spuriousNF => exact absurd hq id
  | resumeNF => exact absurd hq id

theorem _root_.Verif.SQ.mem_eraseIdx_or {β : Type} {l : List β} {i : Nat} {c : β} (hc : l[i]? = some c) (y : β) (hy : y ∈ l) : y = c ∨ y ∈ l.eraseIdx i := by
  induction l generalizing i with
  | nil => cases hy
  | cons a l ih =>
    cases i with
    | zero =>
      simp at hc
      rcases List.mem_cons.mp hy with rfl | h
      · exact Or.inl hc
      · exact Or.inr h
    | succ i =>
      rcases List.mem_cons.mp hy with rfl | h
      · exact Or.inr (by simp)
      · rcases ih (by simpa using hc) h with h | h
        · exact Or.inl h
        · exact Or.inr (by simp [h])

/-! ### The middleware -/

/-- Is it a call of `publish`? -/
def isPublish : Act T → Nat
  | .bm (.publish ..) => 1
  | _ => 0

inductive Eff (d : Bool) (s s' : St T) : Act T → Prop
  | queue {a : BM.Act T} {b : SQ.Act T} {q' : SQ.St T} {ev : List (Ev T)} (ha : Allowed d b) (hs : SQ.step s.bm.sq b = .ok q' ev)
      (hturn : QTurn b ↔ PollTurn (.bm a)) (hh : QTurn b → (s.bm.hand = [] ∧ s.alive = true) ∨ 2 ≤ crank s.bm.sq)
      (hpub : PubTurn (.bm a) ↔ ∃ i p, b = .resumeNF i p) (hpush : d = false → isPush b = isPublish (.bm a)) (hem : a ≠ .emit)
      (e : s' = { s with bm := BM.absorb { s.bm with sq := q' } ev, came := s.came ++ putIn ev, left := s.left ++ ev.flatMap outs }) : Eff d s s' (.bm a)
  | account {t : Nat} {x : Nat × Nat} (hx : x ∈ s.bm.pend)
      (e : s' = { s with bm := { s.bm with discarded := s.bm.discarded + x.2, pend := s.bm.pend.erase x } }) : Eff d s s' (.bm (.account t))
  | emit {x : T} {r : List T} (hx : s.bm.hand = x :: r) (e : s' = { s with bm := { s.bm with hand := r, emitted := s.bm.emitted ++ [x] } }) :
      Eff d s s' (.bm .emit)
  | throw {x : T} {r : List T} (hx : s.bm.hand = x :: r)
      (e : s' = { s with bm := { s.bm with hand := r, emitted := s.bm.emitted ++ [x] }, alive := false }) : Eff d s s' .throw
  | restart (e : s' = { s with alive := true }) : Eff d s s' .restart

theorem step_eff {d : Bool} {s s' : St T} {a : Act T} (h : step d s a = some s') : Eff d s s' a := by
  cases a with
  | bm a =>
    simp only [step] at h
    split at h
    · cases h
    next hal =>
    split at h
    · next b ev hb =>
      cases h
      cases a with
      | publish t x pick =>
        simp only [BM.step] at hb
        split at hb
        · cases hb
        next hc =>
        have ht : t ≠ 0 := fun e => hc (Or.inl e)
        split at hb
        · next q ev' hs =>
          cases hb
          cases d
          · exact .queue (b := .call t (.push x) pick) ⟨rfl, ht⟩ hs (by simp [QTurn, PollTurn]) (by simp [QTurn]) (by simp [PubTurn]) (fun _ => rfl) (by simp) rfl
          · exact .queue (b := .call t (.forcePush x) pick) ⟨rfl, ht⟩ hs (by simp [QTurn, PollTurn]) (by simp [QTurn]) (by simp [PubTurn]) nofun (by simp) rfl
        · cases hb
      | account t =>
        simp only [BM.step] at hb
        split at hb
        · cases hb
        next e he =>
        cases hb
        refine .account (List.mem_of_find?_eq_some he) ?_
        simp [putIn]
      | poll to pick =>
        simp only [BM.step] at hb
        split at hb
        · cases hb
        next hh =>
        split at hb
        · next q ev' hs =>
          cases hb
          exact .queue (b := .call 0 (.timedPop to) pick) rfl hs (by simp [QTurn, PollTurn]) (fun _ => Or.inl ⟨by simpa using hh, by simpa [byPoller] using hal⟩) (by simp [PubTurn]) (fun _ => rfl) (by simp) rfl
        · cases hb
      | emit =>
        simp only [BM.step] at hb
        split at hb
        · cases hb
        next x r hx =>
        cases hb
        exact .emit hx (by simp [putIn])
      | wake b =>
        simp only [BM.step] at hb
        split at hb
        · next hw =>
          split at hb
          · next q ev' hs =>
            cases hb
            refine .queue ?_ hs ?_ ?_ ?_ ?_ (by simp) rfl
            · cases b <;> first | trivial | simp [BM.isWake] at hw
            · cases b <;> simp [QTurn, PollTurn] <;> simp [BM.isWake] at hw
            · exact fun hq => Or.inr (crank_wake hw hq hs)
            · cases b <;> simp [PubTurn]
            · intro _
              cases b <;> first | rfl | simp [BM.isWake] at hw
          · cases hb
        · cases hb
    · cases h
  | throw =>
    simp only [step] at h
    split at h
    · split at h
      · next x r hx => cases h; exact .throw hx rfl
      · cases h
    · cases h
  | restart =>
    simp only [step] at h
    split at h
    · cases h
    · cases h; exact .restart rfl

theorem outs_taken (ev : List (Ev T)) : (ev.flatMap outs).map (·.1) = takenOut ev := by
  induction ev with
  | nil => rfl
  | cons e l ih => cases e <;> simp_all [outs, takenOut, Ev.outs]

theorem outs_popped (ev : List (Ev T)) : ((ev.flatMap outs).filter (·.2)).map (·.1) = BM.poppedItems ev := by
  induction ev with
  | nil => rfl
  | cons e l ih => cases e <;> simp_all [outs, BM.poppedItems]

theorem outs_disc (ev : List (Ev T)) : ((ev.flatMap outs).filter (!·.2)).length = BM.discCount ev := by
  induction ev with
  | nil => rfl
  | cons e l ih => cases e <;> simp_all [outs, BM.discCount]; omega

/-- What always holds. -/
structure Inv (d : Bool) (n : Nat) (s : St T) : Prop where
  q : QInv s.bm.sq
  max : s.bm.sq.max = n
  hand : s.bm.hand ≠ [] → crank s.bm.sq = 1
  one : s.bm.hand.length ≤ 1
  flow : s.came = s.left.map (·.1) ++ s.bm.sq.q
  out : s.bm.emitted ++ s.bm.hand = (s.left.filter (·.2)).map (·.1)
  lost : (s.left.filter (!·.2)).length = s.bm.discarded + BM.pending s.bm
  blk : d = false → ∀ x ∈ s.left, x.2 = true

theorem Inv.init (d : Bool) (n : Nat) : Inv d n (St.init (α := T) n) :=
  ⟨⟨nofun, nofun, by simp [St.init, BM.St.init, SQ.St.init], fun h => absurd rfl h⟩, rfl, fun h => absurd rfl h, Nat.zero_le _, rfl, rfl, rfl, fun _ => nofun⟩

theorem crank_pos (s : SQ.St T) : 1 ≤ crank s := by
  unfold crank; repeat' split
  all_goals omega

theorem Inv.step {d : Bool} {n : Nat} {s s' : St T} {a : Act T} (h : Inv d n s) (hs : MemP.step d s a = some s') : Inv d n s' := by
  cases step_eff hs with
  | queue ha hb hturn hh hpub hpush hem e =>
    rename_i b q' ev
    subst e
    obtain ⟨e1, e2, e3, e4, e5⟩ := BM.absorb_spec { s.bm with sq := q' } ev
    have hfl := step_flow hb
    have hpop : BM.poppedItems ev = [] ∨ ∃ x, BM.poppedItems ev = [x] ∧ crank q' = 1 ∧ s.bm.hand = [] := by
      by_cases ht : QTurn b
      · rcases sq_turn h.q ha ht hb with ⟨x, h1, h2, h3, h4⟩ | ⟨h1, _⟩
        · refine Or.inr ⟨x, by rw [h2]; rfl, h3, ?_⟩
          cases hd : s.bm.hand with
          | nil => rfl
          | cons y l =>
            have := h.hand (by rw [hd]; simp)
            rcases hh ht with ⟨h5, _⟩ | h5
            · rw [hd] at h5; cases h5
            · omega
        · exact Or.inl h1
      · exact Or.inl (sq_other h.q ha ht hb).2
    constructor
    · show QInv (BM.absorb _ _).sq
      rw [e1]; exact h.q.step ha hb
    · show (BM.absorb _ _).sq.max = n
      rw [e1]; show q'.max = n
      rw [sq_max ha hb]; exact h.max
    · show (BM.absorb _ _).hand ≠ [] → crank (BM.absorb _ _).sq = 1
      rw [e1, e4]
      show s.bm.hand ++ _ ≠ [] → crank q' = 1
      intro hne
      rcases hpop with h1 | ⟨x, h1, h2, _⟩
      · rw [h1, List.append_nil] at hne
        have hc := h.hand hne
        by_cases ht : QTurn b
        · rcases hh ht with ⟨h5, _⟩ | h5
          · exact absurd h5 hne
          · omega
        · have := (sq_other h.q ha ht hb).1
          have := crank_pos q'
          omega
      · exact h2
    · show (BM.absorb _ _).hand.length ≤ 1
      rw [e4]
      rcases hpop with h1 | ⟨x, h1, _, h2⟩
      · rw [h1, List.append_nil]; exact h.one
      · rw [h1]; show (s.bm.hand ++ [x]).length ≤ 1
        rw [h2]; exact Nat.le_refl _
    · show s.came ++ putIn ev = (s.left ++ ev.flatMap outs).map (·.1) ++ (BM.absorb _ _).sq.q
      rw [e1, List.map_append, outs_taken, h.flow, List.append_assoc, List.append_assoc]
      exact congrArg _ hfl
    · show (BM.absorb _ _).emitted ++ (BM.absorb _ _).hand = _
      rw [e3, e4, List.filter_append, List.map_append, outs_popped, ← h.out, List.append_assoc]
    · show ((s.left ++ ev.flatMap outs).filter (!·.2)).length = (BM.absorb _ _).discarded + BM.pending (BM.absorb _ _)
      rw [e2, e5, List.filter_append, List.length_append, outs_disc, h.lost, BM.sq_forced_eq hb]
      simp [BM.pending]; omega
    · intro hd x hx
      rcases List.mem_append.mp hx with hx | hx
      · exact h.blk hd x hx
      · subst hd
        have h0 : BM.discCount ev = 0 := by
          apply BM.sq_disc_zero hb
          rintro t x p rfl
          exact absurd ha.1 (by decide)
        rw [← outs_disc, List.length_eq_zero_iff, List.filter_eq_nil_iff] at h0
        simpa using h0 x hx
  | account hx e =>
    subst e
    refine ⟨h.q, h.max, h.hand, h.one, h.flow, h.out, ?_, h.blk⟩
    have := BM.pending_erase hx
    rw [h.lost]
    simp [BM.pending] at *; omega
  | emit hx e =>
    subst e
    have h1 := h.one
    rw [hx] at h1
    have hr := List.eq_nil_of_length_eq_zero (Nat.le_zero.mp (Nat.le_of_succ_le_succ h1))
    subst hr
    refine ⟨h.q, h.max, fun hn => absurd rfl hn, Nat.zero_le _, h.flow, ?_, h.lost, h.blk⟩
    rw [← h.out, hx]; simp
  | throw hx e =>
    subst e
    have h1 := h.one
    rw [hx] at h1
    have hr := List.eq_nil_of_length_eq_zero (Nat.le_zero.mp (Nat.le_of_succ_le_succ h1))
    subst hr
    refine ⟨h.q, h.max, fun hn => absurd rfl hn, Nat.zero_le _, h.flow, ?_, h.lost, h.blk⟩
    rw [← h.out, hx]; simp
  | restart e => subst e; exact ⟨h.q, h.max, h.hand, h.one, h.flow, h.out, h.lost, h.blk⟩

theorem Reach.inv {d : Bool} {n : Nat} {s : St T} (h : Reach d n s) : Inv d n s := by
  induction h with
  | init => exact .init d n
  | step _ hs ih => exact ih.step hs

/-! ### Infinite executions -/

/-- Turns until the poller takes an event, if there is one. -/
def rank (s : St T) : Nat := if s.bm.hand ≠ [] then 2 else crank s.bm.sq

theorem crank_le (s : SQ.St T) : crank s ≤ 3 := by
  unfold crank; repeat' split
  all_goals omega

theorem rank_bounds (s : St T) : 1 ≤ rank s ∧ rank s ≤ 3 := by
  unfold rank
  split
  · omega
  · exact ⟨crank_pos _, crank_le _⟩

/-- What a step does for the progress of the poller. -/
structure Prog (s s' : St T) (a : Act T) : Prop where
  came : s.came <+: s'.came
  left : s.left <+: s'.left
  turn : PollTurn a → s.bm.sq.q ≠ [] → rank s' < rank s ∨ s.left.length < s'.left.length
  other : ¬ PollTurn a → a ≠ .throw → rank s' ≤ rank s ∧ s'.bm.hand = s.bm.hand ∧ s'.bm.emitted = s.bm.emitted
  out : s.bm.emitted ++ s.bm.hand <+: s'.bm.emitted ++ s'.bm.hand
  emit : PollTurn a → s.bm.hand ≠ [] → s.bm.emitted.length < s'.bm.emitted.length
  grow : s.bm.emitted.length ≤ s'.bm.emitted.length
  alive : a ≠ .throw → s.alive = true → s'.alive = true

theorem Inv.prog {d : Bool} {n : Nat} {s s' : St T} {a : Act T} (h : Inv d n s) (hs : MemP.step d s a = some s') : Prog s s' a := by
  cases step_eff hs with
  | queue ha hb hturn hh hpub hpush hem e =>
    rename_i a b q' ev
    subst e
    obtain ⟨e1, e2, e3, e4, e5⟩ := BM.absorb_spec { s.bm with sq := q' } ev
    have hcr : s.bm.hand ≠ [] → ¬ QTurn b := by
      intro hne ht
      have := h.hand hne
      rcases hh ht with ⟨h1, _⟩ | h1
      · exact hne h1
      · omega
    refine ⟨List.prefix_append _ _, List.prefix_append _ _, ?_, ?_, ?_, ?_, ?_, fun _ h => h⟩
    · intro ht hq
      have ht := hturn.mpr ht
      have hne : s.bm.hand = [] := by
        by_contra hne
        exact hcr hne ht
      rcases sq_turn h.q ha ht hb with ⟨x, h1, h2, h3, h4⟩ | ⟨h1, _, h2, _⟩
      · right
        rw [h2]; simp [outs]
      · left
        have hlt : crank q' < crank s.bm.sq := by
          rcases h2 with h2 | h2
          · exact h2
          · exact absurd h2 hq
        unfold rank
        dsimp only
        rw [e1, e4, h1]
        simp [hne, hlt]
    · intro ht _
      have ht : ¬ QTurn b := fun hq => ht (hturn.mp hq)
      obtain ⟨h1, h2⟩ := sq_other h.q ha ht hb
      refine ⟨?_, by dsimp only; rw [e4, h2, List.append_nil], by dsimp only; rw [e3]⟩
      unfold rank
      dsimp only
      rw [e1, e4, h2, List.append_nil]
      dsimp only
      split
      · exact Nat.le_refl _
      · exact h1
    · dsimp only
      rw [e3, e4, ← List.append_assoc]
      exact List.prefix_append _ _
    · intro ht hne
      exact absurd (hturn.mpr ht) (hcr hne)
    · exact Nat.le_of_eq (by dsimp only; rw [e3])
  | account hx e =>
    subst e
    exact ⟨List.prefix_rfl, List.prefix_rfl, fun h => absurd h id, fun _ _ => ⟨Nat.le_refl _, rfl, rfl⟩, List.prefix_rfl, fun h => absurd h id, Nat.le_refl _,
      fun _ h => h⟩
  | emit hx e =>
    subst e
    have h1 := h.one
    rw [hx] at h1
    have hr := List.eq_nil_of_length_eq_zero (Nat.le_zero.mp (Nat.le_of_succ_le_succ h1))
    subst hr
    refine ⟨List.prefix_rfl, List.prefix_rfl, fun _ _ => Or.inl ?_, fun h => absurd trivial h, by simp [hx], fun _ _ => by simp, by simp, fun _ h => h⟩
    have hc := h.hand (by rw [hx]; simp)
    simp [rank, hx, hc]
  | throw hx e =>
    subst e
    have h1 := h.one
    rw [hx] at h1
    have hr := List.eq_nil_of_length_eq_zero (Nat.le_zero.mp (Nat.le_of_succ_le_succ h1))
    subst hr
    exact ⟨List.prefix_rfl, List.prefix_rfl, fun h => absurd h id, fun _ h => absurd rfl h, by simp [hx], fun h => absurd h id, by simp, fun h => absurd rfl h⟩
  | restart e =>
    subst e
    exact ⟨List.prefix_rfl, List.prefix_rfl, fun h => absurd h id, fun _ _ => ⟨Nat.le_refl _, rfl, rfl⟩, List.prefix_rfl, fun h => absurd h id, Nat.le_refl _,
      fun _ _ => rfl⟩

variable {d : Bool} {n : Nat} {σ : Nat → St T} {α : Nat → Option (Act T)}

theorem Run.reach (h : Run d n σ α) (i : Nat) : Reach d n (σ i) := by
  induction i with
  | zero => exact h.start
  | succ i ih =>
    have := h.exec i
    cases e : α i with
    | none => rw [e] at this; rw [this]; exact ih
    | some a => rw [e] at this; exact .step ih this

theorem Run.inv (h : Run d n σ α) (i : Nat) : Inv d n (σ i) := (h.reach i).inv

theorem Run.next (h : Run d n σ α) (i : Nat) : (α i = none ∧ σ (i + 1) = σ i) ∨ ∃ a, α i = some a ∧ step d (σ i) a = some (σ (i + 1)) := by
  have := h.exec i
  cases e : α i with
  | none => rw [e] at this; exact Or.inl ⟨rfl, this⟩
  | some a => rw [e] at this; exact Or.inr ⟨a, rfl, this⟩

theorem Run.came_mono (h : Run d n σ α) {i j : Nat} (hij : i ≤ j) : (σ i).came <+: (σ j).came := by
  induction hij with
  | refl => exact List.prefix_rfl
  | step _ ih =>
    rcases h.next _ with ⟨_, e⟩ | ⟨a, _, e⟩
    · rw [e]; exact ih
    · exact ih.trans ((h.inv _).prog e).came

theorem Run.left_mono (h : Run d n σ α) {i j : Nat} (hij : i ≤ j) : (σ i).left <+: (σ j).left := by
  induction hij with
  | refl => exact List.prefix_rfl
  | step _ ih =>
    rcases h.next _ with ⟨_, e⟩ | ⟨a, _, e⟩
    · rw [e]; exact ih
    · exact ih.trans ((h.inv _).prog e).left

theorem Run.out_mono (h : Run d n σ α) {i j : Nat} (hij : i ≤ j) :
    (σ i).bm.emitted ++ (σ i).bm.hand <+: (σ j).bm.emitted ++ (σ j).bm.hand := by
  induction hij with
  | refl => exact List.prefix_rfl
  | step _ ih =>
    rcases h.next _ with ⟨_, e⟩ | ⟨a, _, e⟩
    · rw [e]; exact ih
    · exact ih.trans ((h.inv _).prog e).out

theorem PollAlive.later (h : Run d n σ α) {i : Nat} (ha : PollAlive σ α i) {j : Nat} (hij : i ≤ j) : PollAlive σ α j := by
  refine ⟨?_, fun k hk => ha.calm k (Nat.le_trans hij hk), ha.fair⟩
  induction hij with
  | refl => exact ha.running
  | step hm ih =>
    rcases h.next _ with ⟨_, e⟩ | ⟨a, h1, e⟩
    · rw [e]; exact ih
    · exact ((h.inv _).prog e).alive (fun h2 => ha.calm _ hm (by rw [h1, h2])) ih

theorem PollAlive.turn (h : Run d n σ α) {i : Nat} (ha : PollAlive σ α i) (k : Nat) (hk : i ≤ k) : ∃ j, k ≤ j ∧ ∃ a, α j = some a ∧ PollTurn a :=
  ha.fair k fun _ hj => (ha.later h (Nat.le_trans hk hj)).running

/-- Everything that came leaves the queue. -/
theorem Run.drain (h : Run d n σ α) {i : Nat} (ha : PollAlive σ α i) : ∃ j, i ≤ j ∧ (σ i).came.length ≤ (σ j).left.length := by
  refine eventually (σ := σ) (α := α) PollTurn (fun s : St T => (σ i).came.length ≤ s.left.length) (fun s => ((σ i).came.length - s.left.length) * 4 + rank s) i (ha.turn h) ?_
  intro j hj hg
  have hq : (σ j).bm.sq.q ≠ [] := by
    intro hq
    have h1 := (h.inv j).flow
    rw [hq, List.append_nil] at h1
    have h2 := (h.came_mono hj).length_le
    have h3 := congrArg List.length h1
    simp only [List.length_map] at h3
    omega
  rcases h.next j with ⟨h1, e⟩ | ⟨a, h1, e⟩
  · rw [e, h1]; exact ⟨Nat.le_refl _, nofun⟩
  · have hp := (h.inv j).prog e
    have hl := hp.left.length_le
    have b1 := rank_bounds (σ j)
    have b2 := rank_bounds (σ (j + 1))
    by_cases ht : PollTurn a
    · have := hp.turn ht hq
      constructor
      · rcases this with h2 | h2 <;> omega
      · intro _ _ _
        rcases this with h2 | h2 <;> omega
    · have h2 := (hp.other ht (fun h2 => ha.calm j hj (by rw [h1, h2]))).1
      constructor
      · omega
      · intro b hb hbt
        rw [h1] at hb; cases hb
        exact absurd hbt ht

/-- The event in the hand of the poller is given to the listeners. -/
theorem Run.emits (h : Run d n σ α) {i : Nat} (ha : PollAlive σ α i) : ∃ j, i ≤ j ∧ (σ i).bm.emitted ++ (σ i).bm.hand <+: (σ j).bm.emitted := by
  have : ∃ j, i ≤ j ∧ ((σ i).bm.emitted ++ (σ i).bm.hand).length ≤ (σ j).bm.emitted.length := by
    refine eventually (σ := σ) (α := α) PollTurn (fun s : St T => ((σ i).bm.emitted ++ (σ i).bm.hand).length ≤ s.bm.emitted.length)
      (fun s => ((σ i).bm.emitted ++ (σ i).bm.hand).length - s.bm.emitted.length) i (ha.turn h) ?_
    intro j hj hg
    have hh : (σ j).bm.hand ≠ [] := by
      intro hh
      have := (h.out_mono hj).length_le
      rw [hh, List.append_nil] at this
      exact hg this
    rcases h.next j with ⟨h1, e⟩ | ⟨a, h1, e⟩
    · rw [e, h1]; exact ⟨Nat.le_refl _, nofun⟩
    · have hp := (h.inv j).prog e
      have hl := hp.grow
      refine ⟨by omega, fun b hb hbt => ?_⟩
      rw [h1] at hb; cases hb
      have := hp.emit hbt hh
      omega
  obtain ⟨j, hj, hl⟩ := this
  exact ⟨j, hj, List.prefix_of_prefix_length_le (h.out_mono hj) (List.prefix_append _ _) hl⟩

/-! ### Publishers -/

/-- What a step does for waiting publishers of a blocking middleware. -/
structure WProg (s s' : St T) (a : Act T) : Prop where
  count : wcount s'.bm.sq + s'.came.length = wcount s.bm.sq + s.came.length + isPublish a
  room : PubTurn a → s.bm.sq.q.length < s.bm.sq.max → s.came.length < s'.came.length
  woken : ¬ PubTurn a → s.bm.sq.knf ≠ [] → s'.bm.sq.knf ≠ []

theorem wprog {s s' : St T} {a : Act T} (hs : MemP.step false s a = some s') : WProg s s' a := by
  cases step_eff hs with
  | queue ha hb hturn hh hpub hpush hem e =>
    rename_i a b q' ev
    subst e
    obtain ⟨e1, -⟩ := BM.absorb_spec { s.bm with sq := q' } ev
    have hw := sq_wcount ha hb
    rw [hpush rfl] at hw
    refine ⟨?_, ?_, ?_⟩
    · dsimp only
      rw [e1]
      show wcount q' + _ = _
      rw [List.length_append]; omega
    · intro ht hl
      obtain ⟨i, p, rfl⟩ := hpub.mp ht
      have := List.length_pos_iff.mpr (sq_resumeNF hl hb)
      simp only [List.length_append]; omega
    · intro ht hk
      dsimp only
      rw [e1]
      exact sq_knf (fun i p hb => ht (hpub.mpr ⟨i, p, hb⟩)) hk hb
  | account hx e => subst e; exact ⟨rfl, fun h => absurd h id, fun _ h => h⟩
  | emit hx e => subst e; exact ⟨rfl, fun h => absurd h id, fun _ h => h⟩
  | throw hx e => subst e; exact ⟨rfl, fun h => absurd h id, fun _ h => h⟩
  | restart e => subst e; exact ⟨rfl, fun h => absurd h id, fun _ h => h⟩

/-- While a publisher waits, some event is accepted in the end. -/
theorem Run.accepts (h : Run false n σ α) (hn : 0 < n) {i : Nat} (ha : PollAlive σ α i) (hp : PubFair σ α) (hw : 0 < wcount (σ i).bm.sq) :
    ∃ j, i ≤ j ∧ (σ i).came.length < (σ j).came.length := by
  by_contra hno
  have same : ∀ j, i ≤ j → (σ j).came.length = (σ i).came.length := by
    intro j hj
    have h1 := (h.came_mono hj).length_le
    by_contra hne
    exact hno ⟨j, hj, by omega⟩
  have cnt : ∀ j, i ≤ j → 0 < wcount (σ j).bm.sq := by
    intro j hj
    induction hj with
    | refl => exact hw
    | step hm ih =>
      rename_i k
      rcases h.next k with ⟨_, e⟩ | ⟨a, _, e⟩
      · rw [e]; exact ih
      · have := (wprog e).count
        have h1 := same k hm
        have h2 := same (k + 1) (Nat.le_succ_of_le hm)
        show 0 < wcount (σ (k + 1)).bm.sq
        omega
  obtain ⟨j, hj, hl⟩ := h.drain ha
  have hq : ∀ k, j ≤ k → (σ k).bm.sq.q = [] := by
    intro k hk
    have h1 := congrArg List.length (h.inv k).flow
    have h2 := (h.left_mono hk).length_le
    have h3 := same k (Nat.le_trans hj hk)
    simp only [List.length_append, List.length_map] at h1
    exact List.eq_nil_of_length_eq_zero (by omega)
  have hk : ∀ k, j ≤ k → (σ k).bm.sq.knf ≠ [] := by
    intro k hk hkn
    have h1 := cnt k (Nat.le_trans hj hk)
    unfold wcount at h1
    rw [hkn] at h1
    have h2 : (σ k).bm.sq.wnf ≠ [] := by
      intro e; rw [e] at h1; simp at h1
    have h3 := (h.inv k).q.nf h2
    rw [hkn, hq k hk, (h.inv k).max] at h3
    simp at h3; omega
  obtain ⟨k, hjk, a, h1, ht⟩ := hp j hk
  rcases h.next k with ⟨h2, _⟩ | ⟨b, h2, e⟩
  · rw [h1] at h2; cases h2
  · rw [h1] at h2; cases h2
    have h3 := (wprog e).room ht (by rw [hq k hjk, (h.inv k).max]; exact hn)
    have h4 := same k (Nat.le_trans hj hjk)
    have h5 := same (k + 1) (by omega)
    omega

/-! ### After an exception -/

/-- The thread ended outside the queue, with nothing in its hand. -/
theorem Reach.dead {s : St T} (h : Reach d n s) : s.alive = false → crank s.bm.sq = 1 ∧ s.bm.hand = [] := by
  induction h with
  | init => exact nofun
  | step hr hs ih =>
    rename_i s s' a
    have hi := hr.inv
    cases step_eff hs with
    | queue ha hb hturn hh hpub hpush hem e =>
      rename_i a b q' ev
      subst e
      obtain ⟨e1, _, _, e4, _⟩ := BM.absorb_spec { s.bm with sq := q' } ev
      intro hd
      obtain ⟨h1, h2⟩ := ih hd
      have hnt : ¬ QTurn b := by
        intro ht
        rcases hh ht with ⟨_, h3⟩ | h3
        · have hd : s.alive = false := hd
          rw [hd] at h3; cases h3
        · omega
      obtain ⟨h3, h4⟩ := sq_other hi.q ha hnt hb
      dsimp only
      rw [e1, e4, h4, List.append_nil]
      have := crank_pos q'
      exact ⟨by show crank q' = 1; omega, h2⟩
    | account hx e => subst e; exact ih
    | emit hx e =>
      subst e
      intro hd
      rw [(ih hd).2] at hx; cases hx
    | throw hx e =>
      subst e
      intro _
      have h1 := hi.one
      rw [hx] at h1
      exact ⟨hi.hand (by rw [hx]; simp), List.eq_nil_of_length_eq_zero (Nat.le_zero.mp (Nat.le_of_succ_le_succ h1))⟩
    | restart e => subst e; exact nofun

theorem sq_stay {s s' : SQ.St T} {b : SQ.Act T} {ev : List (Ev T)} (ha : Allowed false b) (hn : ¬ QTurn b) (hf : s.max ≤ s.q.length)
    (hs : SQ.step s b = .ok s' ev) : s'.q = s.q ∧ ∀ x ∈ s.wnf ++ s.knf, x ∈ s'.wnf ++ s'.knf := by
  cases b with
  | call t op pick =>
    simp only [SQ.step] at hs
    split at hs
    · cases hs
    cases op with
    | push x =>
      simp only [bodyPush] at hs
      split at hs <;> cases hs
      · omega
      · refine ⟨rfl, fun y hy => ?_⟩
        simp at hy ⊢
        rcases hy with hy | hy <;> simp [hy]
    | forcePush x => exact absurd ha.1 (by decide)
    | timedPop to => exact absurd trivial hn
    | tryPush x => exact absurd ha id
    | pop => exact absurd ha id
    | tryPop => exact absurd ha id
  | setMax m => exact absurd ha id
  | spuriousNE i =>
    simp only [SQ.step] at hs
    split at hs <;> cases hs
    exact ⟨rfl, fun _ h => h⟩
  | expireNE i => exact absurd trivial hn
  | resumeNE i late pick => exact absurd trivial hn
  | spuriousNF i =>
    simp only [SQ.step] at hs
    split at hs <;> cases hs
    next c hc =>
    refine ⟨rfl, fun y hy => ?_⟩
    have := SQ.mem_eraseIdx_or hc y
    simp at hy ⊢
    rcases hy with hy | hy
    · rcases this hy with h | h <;> simp [h]
    · simp [hy]
  | resumeNF i pick =>
    simp only [SQ.step] at hs
    split at hs
    · cases hs
    next t x hc =>
    simp only [bodyPush] at hs
    split at hs <;> cases hs
    · next hl => exact absurd hl (by omega)
    · refine ⟨rfl, fun y hy => ?_⟩
      have := SQ.mem_eraseIdx_or hc y
      simp at hy ⊢
      rcases hy with hy | hy
      · simp [hy]
      · rcases this hy with h | h <;> simp [h]

end Verif.MemP
