import Verif.Model.HandlerEnd
import Mathlib.Tactic.ByContra

namespace Verif.HandlerEnd
open Verif

/-- The delivery a thread holds the handler for. -/
def Pc.delivery : Pc → Option Nat
  | .idle => none
  | .pending e => some e
  | .wait e => some e
  | .inside e _ => some e

/-- Invariant of all executions. -/
structure Inv (multi : Bool) (s : St) : Prop where
  /-- deliveries are numbered -/
  fresh : ∀ e, Ev.start e ∈ s.hist → e < s.next
  held : ∀ t e, (s.pc t).delivery = some e → Ev.start e ∈ s.hist ∧ ¬ Before s.hist .removed (.start e)
  entered : ∀ e, Ev.enter e ∈ s.hist → Ev.start e ∈ s.hist ∧ ¬ Before s.hist .removed (.start e)
  reg : s.phase.registered = true → Ev.removed ∉ s.hist
  lockOwn : s.phase = .alive → ∀ t, s.owner = some t ↔ ∃ e, s.pc t = .inside e true
  plain : multi = true → s.phase = .alive → ∀ t e, s.pc t ≠ .inside e false
  /-- two threads hold different deliveries, and a delivery that waits has not entered -/
  once : ∀ t e, (s.pc t = .pending e ∨ s.pc t = .wait e) → Ev.enter e ∉ s.hist
  differ : ∀ t u e, (s.pc t).delivery = some e → (s.pc u).delivery = some e → t = u
  nodup : (s.hist.filter (fun v => match v with | .enter _ => true | _ => false)).Nodup

theorem before_cons {h : List Ev} {a b c : Ev} : Before (c :: h) a b ↔ (c = b ∧ a ∈ h) ∨ Before h a b := by
  constructor
  · rintro ⟨h1, h2, e, hm⟩
    cases h1 with
    | nil => simp only [List.nil_append, List.cons.injEq] at e; obtain ⟨rfl, rfl⟩ := e; exact .inl ⟨rfl, hm⟩
    | cons x h1 =>
      simp only [List.cons_append, List.cons.injEq] at e
      exact .inr ⟨h1, h2, e.2, hm⟩
  · rintro (⟨rfl, hm⟩ | ⟨h1, h2, rfl, hm⟩)
    · exact ⟨[], h, rfl, hm⟩
    · exact ⟨c :: h1, h2, rfl, hm⟩

theorem Inv.init (multi : Bool) : Inv multi St.init := by
  constructor <;> simp [St.init, Pc.delivery]

theorem before_cons_ne {h : List Ev} {v : Ev} {e : Nat} (hv : v ≠ .start e) : Before (v :: h) .removed (.start e) ↔ Before h .removed (.start e) := by
  rw [before_cons]; simp [hv]

theorem before_removed_mem {h : List Ev} {e : Nat} (hb : Before h .removed (.start e)) : Ev.removed ∈ h ∧ Ev.start e ∈ h := by
  obtain ⟨h1, h2, rfl, hm⟩ := hb
  simp [hm]

/-- An event other than `start` and `removed` in front of the history, and one thread that goes on with its delivery or drops it. -/
theorem Inv.move {multi : Bool} {s s' : St} (h : Inv multi s) {t : Nat} {p : Pc} (hpc : s'.pc = upd s.pc t p) (hnext : s'.next = s.next)
    (hph : s'.phase = s.phase) (hp : ∀ e, p.delivery = some e → (s.pc t).delivery = some e) (hnp : ∀ e, p ≠ .pending e)
    (hw : ∀ e, p = .wait e → s.pc t = .pending e ∧ s'.hist = s.hist)
    (hh : s'.hist = s.hist ∨ (∃ e, s'.hist = .leave e :: s.hist) ∨
      ∃ e, s'.hist = .enter e :: s.hist ∧ (s.pc t = .pending e ∨ s.pc t = .wait e))
    (hl : s.phase = .alive → ∀ u, s'.owner = some u ↔ ∃ e, s'.pc u = .inside e true) (hpl : multi = true → s.phase = .alive → ∀ e, p ≠ .inside e false) :
    Inv multi s' := by
  have hst : ∀ e, Ev.start e ∈ s'.hist ↔ Ev.start e ∈ s.hist := by
    intro e; rcases hh with e1 | ⟨e1, e2⟩ | ⟨e1, e2, _⟩ <;> rw [‹s'.hist = _›] <;> simp
  have hrm : Ev.removed ∈ s'.hist ↔ Ev.removed ∈ s.hist := by
    rcases hh with e1 | ⟨e1, e2⟩ | ⟨e1, e2, _⟩ <;> rw [‹s'.hist = _›] <;> simp
  have hbf : ∀ e, Before s'.hist .removed (.start e) ↔ Before s.hist .removed (.start e) := by
    intro e
    rcases hh with e1 | ⟨e1, e2⟩ | ⟨e1, e2, _⟩ <;> rw [‹s'.hist = _›] <;> exact before_cons_ne (by simp)
  have hd : ∀ u e, (s'.pc u).delivery = some e → (s.pc u).delivery = some e := by
    intro u e
    rw [hpc, upd_apply]
    split
    · next hu => subst hu; exact hp e
    · exact id
  have hent : ∀ e, Ev.enter e ∈ s'.hist → Ev.enter e ∈ s.hist ∨ (s.pc t = .pending e ∨ s.pc t = .wait e) := by
    intro e he
    rcases hh with e1 | ⟨e1, e2⟩ | ⟨e1, e2, e3⟩
    · rw [e1] at he; exact .inl he
    · rw [e2] at he; simp at he; exact .inl he
    · rw [e2] at he; simp at he
      rcases he with rfl | he
      · exact .inr e3
      · exact .inl he
  have hdel : ∀ u e, (s.pc u = .pending e ∨ s.pc u = .wait e) → (s.pc u).delivery = some e := by
    rintro u e (h | h) <;> rw [h] <;> rfl
  refine ⟨?_, ?_, ?_, ?_, ?_, ?_, ?_, ?_, ?_⟩
  · intro e he; rw [hnext]; exact h.fresh e ((hst e).mp he)
  · intro u e hu; rw [hst, hbf]; exact h.held u e (hd u e hu)
  · intro e he
    rw [hst, hbf]
    rcases hent e he with he | he
    · exact h.entered e he
    · exact h.held t e (hdel t e he)
  · intro hr; rw [hph] at hr; rw [hrm]; exact h.reg hr
  · intro ha; rw [hph] at ha; exact hl ha
  · intro hm ha u e
    rw [hph] at ha
    rw [hpc, upd_apply]
    split
    · exact hpl hm ha e
    · exact h.plain hm ha u e
  · intro u e hu
    by_cases hut : u = t
    · subst hut
      rw [hpc, upd_same] at hu
      rcases hu with hu | hu
      · exact absurd hu (hnp e)
      · obtain ⟨h1, h2⟩ := hw e hu
        rw [h2]; exact h.once u e (.inl h1)
    · rw [hpc, upd_other _ _ hut] at hu
      intro he
      rcases hent e he with he | he
      · exact h.once u e hu he
      · exact hut (h.differ u t e (hdel u e hu) (hdel t e he))
  · intro u v e hu hv; exact h.differ u v e (hd u e hu) (hd v e hv)
  · rcases hh with e1 | ⟨e1, e2⟩ | ⟨e1, e2, e3⟩
    · rw [e1]; exact h.nodup
    · rw [e2]; simpa using h.nodup
    · rw [e2]
      simp only [List.filter_cons, if_true, List.nodup_cons, List.mem_filter, and_true]
      exact ⟨h.once t e1 e3, h.nodup⟩

/-- Any step that keeps what the threads hold, and adds an event that is neither `start` nor `enter`. -/
theorem Inv.note {multi : Bool} {s s' : St} (h : Inv multi s) {v : Ev} (hv : ∀ e, v ≠ .start e ∧ v ≠ .enter e) (hpc : s'.pc = s.pc) (hnext : s'.next = s.next)
    (hh : s'.hist = s.hist ∨ s'.hist = v :: s.hist) (hr : s'.phase.registered = true → s'.hist = s.hist ∧ s.phase.registered = true) (hna : s'.phase ≠ .alive) :
    Inv multi s' := by
  have hst : ∀ e, Ev.start e ∈ s'.hist ↔ Ev.start e ∈ s.hist := by
    intro e; rcases hh with e1 | e1 <;> rw [e1]; simp [(hv e).1.symm]
  have hen : ∀ e, Ev.enter e ∈ s'.hist ↔ Ev.enter e ∈ s.hist := by
    intro e; rcases hh with e1 | e1 <;> rw [e1]; simp [(hv e).2.symm]
  have hbf : ∀ e, Before s'.hist .removed (.start e) ↔ Before s.hist .removed (.start e) := by
    intro e
    rcases hh with e1 | e1 <;> rw [e1]
    exact before_cons_ne (hv e).1
  refine ⟨?_, ?_, ?_, ?_, fun ha => absurd ha hna, fun _ ha => absurd ha hna, ?_, ?_, ?_⟩
  · intro e he; rw [hnext]; exact h.fresh e ((hst e).mp he)
  · intro u e hu; rw [hpc] at hu; rw [hst, hbf]; exact h.held u e hu
  · intro e he; rw [hst, hbf]; exact h.entered e ((hen e).mp he)
  · intro h1; obtain ⟨a, b⟩ := hr h1; rw [a]; exact h.reg b
  · intro u e hu; rw [hpc] at hu; rw [hen]; exact h.once u e hu
  · rw [hpc]; exact h.differ
  · rcases hh with e1 | e1 <;> rw [e1]
    · exact h.nodup
    · rw [List.filter_cons]
      cases v with
      | enter e => exact absurd rfl (hv e).2
      | start e => exact absurd rfl (hv e).1
      | leave e => simpa using h.nodup
      | removed => simpa using h.nodup
      | freed => simpa using h.nodup

theorem Inv.emit {multi : Bool} {s : St} (h : Inv multi s) {t : Nat} (ht : s.pc t = .idle) :
    Inv multi { s with next := s.next + 1, hist := .start s.next :: s.hist,
                       pc := if s.phase.registered then upd s.pc t (.pending s.next) else s.pc } := by
  have hnew : Ev.start s.next ∉ s.hist := fun hm => absurd (h.fresh _ hm) (Nat.lt_irrefl _)
  have hbf : ∀ e, e ≠ s.next → (Before (.start s.next :: s.hist) .removed (.start e) ↔ Before s.hist .removed (.start e)) :=
    fun e he => before_cons_ne (by simpa using he.symm)
  have hen : Ev.enter s.next ∉ s.hist := fun hm => hnew (h.entered _ hm).1
  have hne : ∀ u e, (s.pc u).delivery = some e → e ≠ s.next := by
    rintro u e hu rfl; exact hnew (h.held u _ hu).1
  have hpc : ∀ u, (if s.phase.registered then upd s.pc t (.pending s.next) else s.pc) u = s.pc u ∨
      (u = t ∧ s.phase.registered = true ∧ (if s.phase.registered then upd s.pc t (.pending s.next) else s.pc) u = .pending s.next) := by
    intro u
    by_cases hr : s.phase.registered = true
    · by_cases hu : u = t
      · subst hu; exact .inr ⟨rfl, hr, by simp [hr]⟩
      · exact .inl (by simp [hr, hu])
    · exact .inl (by simp [hr])
  refine ⟨?_, ?_, ?_, ?_, ?_, ?_, ?_, ?_, ?_⟩
  · intro e he
    show e < s.next + 1
    simp only [List.mem_cons, Ev.start.injEq] at he
    rcases he with rfl | he
    · omega
    · have := h.fresh e he; omega
  · intro u e hu
    show Ev.start e ∈ .start s.next :: s.hist ∧ ¬ Before (.start s.next :: s.hist) .removed (.start e)
    change ((if s.phase.registered then upd s.pc t (.pending s.next) else s.pc) u).delivery = some e at hu
    rcases hpc u with e1 | ⟨rfl, hr, e1⟩
    · rw [e1] at hu
      have := h.held u e hu
      exact ⟨List.mem_cons_of_mem _ this.1, by rw [hbf e (hne u e hu)]; exact this.2⟩
    · rw [e1] at hu
      cases hu
      refine ⟨List.mem_cons_self .., ?_⟩
      rw [before_cons]
      rintro (⟨-, hm⟩ | hb)
      · exact h.reg hr hm
      · exact h.reg hr (before_removed_mem hb).1
  · intro e he
    simp only [List.mem_cons, reduceCtorEq, false_or] at he
    have := h.entered e he
    refine ⟨List.mem_cons_of_mem _ this.1, ?_⟩
    show ¬ Before (.start s.next :: s.hist) .removed (.start e)
    rw [hbf e (by rintro rfl; exact hen he)]
    exact this.2
  · intro hr hm
    simp only [List.mem_cons, reduceCtorEq, false_or] at hm
    exact h.reg hr hm
  · intro ha u
    show s.owner = some u ↔ ∃ e, (if s.phase.registered then upd s.pc t (.pending s.next) else s.pc) u = .inside e true
    rw [h.lockOwn ha u]
    rcases hpc u with e1 | ⟨rfl, _, e1⟩
    · rw [e1]
    · rw [e1, ht]; simp
  · intro hm ha u e
    show (if s.phase.registered then upd s.pc t (.pending s.next) else s.pc) u ≠ _
    rcases hpc u with e1 | ⟨rfl, _, e1⟩
    · rw [e1]; exact h.plain hm ha u e
    · rw [e1]; simp
  · intro u e hu
    change (if s.phase.registered then upd s.pc t (.pending s.next) else s.pc) u = _ ∨ (if s.phase.registered then upd s.pc t (.pending s.next) else s.pc) u = _ at hu
    simp only [List.mem_cons, reduceCtorEq, false_or]
    rcases hpc u with e1 | ⟨rfl, _, e1⟩
    · rw [e1] at hu; exact h.once u e hu
    · rw [e1] at hu; simp at hu; subst hu; exact hen
  · intro u v e hu hv
    change ((if s.phase.registered then upd s.pc t (.pending s.next) else s.pc) u).delivery = some e at hu
    change ((if s.phase.registered then upd s.pc t (.pending s.next) else s.pc) v).delivery = some e at hv
    rcases hpc u with e1 | ⟨rfl, _, e1⟩ <;> rcases hpc v with e2 | ⟨rfl, _, e2⟩ <;> rw [e1] at hu <;> rw [e2] at hv
    · exact h.differ u v e hu hv
    · cases hv; exact absurd rfl (hne u _ hu)
    · cases hu; exact absurd rfl (hne v _ hv)
  · simpa using h.nodup

theorem Inv.step {multi : Bool} {s s' : St} {a : Act} (h : Inv multi s) (hs : HandlerEnd.step multi s a = some s') : Inv multi s' := by
  cases a with
  | destroy =>
    simp only [HandlerEnd.step] at hs
    split at hs
    · next hp =>
      split at hs <;> cases hs
      · exact h.note (v := .removed) (by simp) rfl rfl (.inl rfl) (fun _ => ⟨rfl, by rw [hp]; rfl⟩) (by simp)
      · exact h.note (v := .removed) (by simp) rfl rfl (.inr rfl) (by simp [Phase.registered]) (by simp)
    · cases hs; exact h.note (v := .removed) (by simp) rfl rfl (.inr rfl) (by simp [Phase.registered]) (by simp)
    · cases hs; exact h.note (v := .freed) (by simp) rfl rfl (.inr rfl) (by simp [Phase.registered]) (by simp)
    · cases hs
  | emit t =>
    simp only [HandlerEnd.step] at hs
    split at hs
    · next ht => cases hs; exact h.emit ht
    · cases hs
  | enter t =>
    simp only [HandlerEnd.step] at hs
    split at hs
    · next e ht =>
      have other : s.phase = .alive → ∀ p : Pc, (∀ e, p ≠ .inside e true) → ∀ u, s.owner = some u ↔ ∃ e, upd s.pc t p u = .inside e true := by
        intro ha p hp u
        rw [h.lockOwn ha u, upd_apply]
        split
        · next hu => subst hu; simp [ht, hp]
        · rfl
      split at hs
      · next hg =>
        cases hs
        exact h.move (t := t) (p := .idle) rfl rfl rfl (by simp [Pc.delivery]) (by simp) (by simp) (.inr (.inr ⟨e, rfl, .inl ht⟩)) (by rw [hg]; simp) (by simp)
      · split at hs
        · cases hs
          exact h.move (t := t) (p := .wait e) rfl rfl rfl (by simp [Pc.delivery, ht]) (by simp) (by simp [ht]) (.inl rfl) (fun ha => other ha _ (by simp)) (by simp)
        · next hn =>
          cases hs
          exact h.move (t := t) (p := .inside e false) rfl rfl rfl (by simp [Pc.delivery, ht]) (by simp) (by simp) (.inr (.inr ⟨e, rfl, .inl ht⟩))
            (fun ha => other ha _ (by simp)) (fun hm ha => absurd ⟨hm, ha⟩ hn)
    · cases hs
  | lock t =>
    simp only [HandlerEnd.step] at hs
    split at hs
    · next e ht =>
      split at hs
      · next ha =>
        split at hs
        · next ho =>
          cases hs
          refine h.move (t := t) (p := .inside e true) rfl rfl rfl (by simp [Pc.delivery, ht]) (by simp) (by simp) (.inr (.inr ⟨e, rfl, .inr ht⟩)) ?_ (by simp)
          intro _ u
          have := h.lockOwn ha u
          rw [ho] at this
          simp only [reduceCtorEq, false_iff] at this
          show some t = some u ↔ ∃ e', upd s.pc t _ u = _
          rw [upd_apply]
          split
          · next hu => subst hu; simp
          · next hu => simp only [Option.some.injEq]; exact ⟨fun e => absurd e.symm hu, fun e => absurd e this⟩
        · cases hs
      · next hn =>
        cases hs
        exact h.move (t := t) (p := .idle) rfl rfl rfl (by simp [Pc.delivery]) (by simp) (by simp) (.inl rfl) (fun ha => absurd ha hn) (by simp)
    · cases hs
  | leave t =>
    simp only [HandlerEnd.step] at hs
    split at hs
    · next e l ht =>
      cases hs
      refine h.move (t := t) (p := .idle) rfl rfl rfl (by simp [Pc.delivery]) (by simp) (by simp) (.inr (.inl ⟨e, rfl⟩)) ?_ (by simp)
      intro ha u
      show (if l then none else s.owner) = some u ↔ ∃ e', upd s.pc t .idle u = .inside e' true
      have hu := h.lockOwn ha u
      have htt := h.lockOwn ha t
      rw [upd_apply]
      cases l with
      | true =>
        have hot : s.owner = some t := htt.mpr ⟨e, ht⟩
        simp only [if_true, reduceCtorEq, false_iff]
        split
        · simp
        · next hne => rw [hot] at hu; simp only [Option.some.injEq] at hu; exact fun hc => hne (hu.mpr hc).symm
      | false =>
        simp only [Bool.false_eq_true, if_false]
        split
        · next e1 => subst e1; rw [hu, ht]; simp
        · exact hu
    · cases hs

theorem Reach.inv {multi : Bool} {P : St → Act → Prop} {s : St} (h : Reach multi P s) : Inv multi s := by
  induction h with
  | init => exact Inv.init multi
  | step _ _ hs ih => exact ih.step hs

/-! ### destruction in a quiet moment -/

/-- What the user must guarantee: the destruction begins when no thread holds the handler, and no delivery begins before the listener is removed. -/
def Quiet (s : St) : Act → Prop
  | .destroy => s.phase = .alive → ∀ t, s.pc t = .idle
  | .emit _ => s.phase ≠ .noMutex
  | _ => True

structure QInv (s : St) : Prop where
  fine : s.bad = false
  still : s.phase ≠ .alive → ∀ t, s.pc t = .idle
  after : ∀ h1 h2, s.hist = h1 ++ .removed :: h2 → ∀ e, .enter e ∉ h1 ∧ .leave e ∉ h1

theorem QInv.step {multi : Bool} {s s' : St} {a : Act} (hi : Inv multi s) (h : QInv s) (hP : Quiet s a) (hs : HandlerEnd.step multi s a = some s') : QInv s' := by
  have pushN : ∀ v : Ev, (∀ e, v ≠ .enter e ∧ v ≠ .leave e) → ∀ h1 h2, v :: s.hist = h1 ++ .removed :: h2 → ∀ e, .enter e ∉ h1 ∧ .leave e ∉ h1 := by
    intro v hv h1 h2 he e
    cases h1 with
    | nil => simp
    | cons x h1 =>
      simp only [List.cons_append, List.cons.injEq] at he
      obtain ⟨rfl, he⟩ := he
      have := h.after h1 h2 he e
      simp only [List.mem_cons, not_or]
      exact ⟨⟨(hv e).1.symm, this.1⟩, (hv e).2.symm, this.2⟩
  have pushA : s.phase = .alive → ∀ v : Ev, v ≠ .removed → ∀ h1 h2, v :: s.hist = h1 ++ .removed :: h2 → ∀ e, .enter e ∉ h1 ∧ .leave e ∉ h1 := by
    intro ha v hv h1 h2 he
    have hn := hi.reg (by rw [ha]; rfl)
    have : Ev.removed ∈ v :: s.hist := by rw [he]; simp
    rcases List.mem_cons.mp this with e | hm
    · exact absurd e.symm hv
    · exact absurd hm hn
  cases a with
  | destroy =>
    simp only [HandlerEnd.step] at hs
    split at hs
    · next hp =>
      have hidle := hP hp
      split at hs <;> cases hs
      · refine ⟨?_, fun _ => hidle, h.after⟩
        have : s.owner = none := by
          cases ho : s.owner with
          | none => rfl
          | some t =>
            obtain ⟨e, he⟩ := (hi.lockOwn hp t).mp ho
            rw [hidle t] at he; cases he
        simp [h.fine, this]
      · exact ⟨h.fine, fun _ => hidle, pushN _ (by simp)⟩
    · next hp => cases hs; exact ⟨h.fine, fun _ => h.still (by rw [hp]; simp), pushN _ (by simp)⟩
    · next hp => cases hs; exact ⟨h.fine, fun _ => h.still (by rw [hp]; simp), pushN _ (by simp)⟩
    · cases hs
  | emit t =>
    simp only [HandlerEnd.step] at hs
    split at hs
    · next ht =>
      cases hs
      refine ⟨h.fine, ?_, pushN _ (by simp)⟩
      intro hna u
      have := h.still hna u
      show (if s.phase.registered then upd s.pc t (.pending s.next) else s.pc) u = .idle
      cases hph : s.phase with
      | alive => exact absurd hph hna
      | noMutex => exact absurd hph hP
      | unregistered => simpa [Phase.registered] using this
      | gone => simpa [Phase.registered] using this
    · cases hs
  | enter t =>
    simp only [HandlerEnd.step] at hs
    split at hs
    · next e ht =>
      have ha : s.phase = .alive := by
        by_contra hna
        have := h.still hna t
        rw [ht] at this; cases this
      rw [if_neg (by rw [ha]; simp)] at hs
      split at hs <;> cases hs
      · exact ⟨h.fine, fun hna => absurd ha hna, h.after⟩
      · exact ⟨h.fine, fun hna => absurd ha hna, pushA ha _ (by simp)⟩
    · cases hs
  | lock t =>
    simp only [HandlerEnd.step] at hs
    split at hs
    · next e ht =>
      have ha : s.phase = .alive := by
        by_contra hna
        have := h.still hna t
        rw [ht] at this; cases this
      rw [if_pos ha] at hs
      split at hs
      · cases hs; exact ⟨h.fine, fun hna => absurd ha hna, pushA ha _ (by simp)⟩
      · cases hs
    · cases hs
  | leave t =>
    simp only [HandlerEnd.step] at hs
    split at hs
    · next e l ht =>
      have ha : s.phase = .alive := by
        by_contra hna
        have := h.still hna t
        rw [ht] at this; cases this
      cases hs
      exact ⟨by simp [h.fine, ha], fun hna => absurd ha hna, pushA ha _ (by simp)⟩
    · cases hs

theorem Reach.qinv {multi : Bool} {s : St} (h : Reach multi Quiet s) : QInv s := by
  induction h with
  | init => exact ⟨rfl, fun h => absurd rfl h, by simp [St.init]⟩
  | step hr hP hs ih => exact ih.step hr.inv hP hs

end Verif.HandlerEnd
