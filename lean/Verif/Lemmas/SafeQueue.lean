import Verif.Spec.SafeQueue

/-! Lemmas about the `SafeQueue` model. -/

namespace Verif.SQ

variable {α : Type}

@[simp] theorem notifyNE_q (s : St α) (p) : (notifyNE s p).q = s.q := by unfold notifyNE; split <;> rfl
@[simp] theorem notifyNF_q (s : St α) (p) : (notifyNF s p).q = s.q := by unfold notifyNF; split <;> rfl
@[simp] theorem notifyNE_max (s : St α) (p) : (notifyNE s p).max = s.max := by unfold notifyNE; split <;> rfl
@[simp] theorem notifyNF_max (s : St α) (p) : (notifyNF s p).max = s.max := by unfold notifyNF; split <;> rfl

theorem dropOld_append (m : Nat) (q : List α) : (dropOld m q).1 ++ (dropOld m q).2 = q := by
  induction q with
  | nil => rfl
  | cons y q ih => unfold dropOld; split <;> simp_all

theorem dropOld_len (m : Nat) (hm : 0 < m) (q : List α) :
    (dropOld m q).2.length = min q.length (m - 1) := by
  induction q with
  | nil => simp [dropOld]
  | cons y q ih =>
    unfold dropOld; split
    · simp_all; omega
    · simp_all; omega

theorem dropOld_zero (q : List α) : dropOld 0 q = ([], q) := by
  cases q <;> simp [dropOld]

theorem flatMap_discarded_outs (l : List α) : (l.map Ev.discarded).flatMap Ev.outs = l := by
  induction l <;> simp_all [Ev.outs]

theorem flatMap_discarded_ins (l : List α) : (l.map Ev.discarded).flatMap Ev.ins = [] := by
  induction l <;> simp_all [Ev.ins]

/-- All parts of a successful step, as a case analysis usable by the invariants. -/
theorem step_flow {s s' : St α} {a : Act α} {ev} (h : step s a = .ok s' ev) :
    s.q ++ ev.flatMap Ev.ins = ev.flatMap Ev.outs ++ s'.q := by
  cases a with
  | call t op pick =>
    simp only [step] at h
    split at h
    · cases h
    cases op with
    | push x =>
      simp only [bodyPush] at h
      split at h <;> (cases h; simp [Ev.ins, Ev.outs])
    | tryPush x =>
      simp only [bodyTryPush] at h
      split at h <;> (cases h; simp [Ev.ins, Ev.outs])
    | forcePush x =>
      simp only [bodyForcePush] at h
      cases h
      have := dropOld_append s.max s.q
      simp [flatMap_discarded_ins, flatMap_discarded_outs, Ev.ins, Ev.outs, ← List.append_assoc, this]
    | pop =>
      simp only [bodyPop, takeFront] at h
      split at h
      · cases h; simp
      · split at h
        · cases h
        · cases h; simp_all [Ev.ins, Ev.outs]
    | tryPop =>
      simp only [bodyTryPop, takeFront] at h
      split at h
      · cases h; simp [Ev.ins, Ev.outs]
      · split at h
        · cases h
        · cases h; simp_all [Ev.ins, Ev.outs]
    | timedPop to =>
      simp only [bodyTimedPop, takeFront] at h
      split at h
      · split at h <;> (cases h; simp [Ev.ins, Ev.outs])
      · split at h
        · cases h
        · cases h; simp_all [Ev.ins, Ev.outs]
  | spuriousNE i =>
    simp only [step] at h
    split at h <;> cases h; simp
  | expireNE i =>
    simp only [step] at h
    split at h
    · cases h
    · split at h <;> cases h; simp
  | spuriousNF i =>
    simp only [step] at h
    split at h <;> cases h; simp
  | resumeNE i late pick =>
    simp only [step] at h
    split at h
    · cases h
    · simp only [bodyResumeNE, bodyPop, takeFront] at h
      split at h
      · split at h
        · cases h; simp [Ev.ins, Ev.outs]
        · split at h
          · cases h
          · cases h; simp_all [Ev.ins, Ev.outs]
      · split at h
        · cases h; simp [*]
        · split at h
          · cases h
          · cases h; simp_all [Ev.ins, Ev.outs]
  | resumeNF i pick =>
    simp only [step] at h
    split at h
    · cases h
    · simp only [bodyPush] at h
      split at h <;> (cases h; simp [Ev.ins, Ev.outs])
  | setMax m => simp only [step] at h; cases h; simp

theorem run_cons {s s'' : St α} {a : Act α} {rest log} (h : run s (a :: rest) = some (s'', log)) :
    ∃ s' ev log', step s a = .ok s' ev ∧ run s' rest = some (s'', log') ∧ log = ev ++ log' := by
  simp only [run] at h
  split at h
  · rename_i s' ev he
    split at h
    · cases h
    · rename_i s3 log' hr
      cases h
      exact ⟨s', ev, log', he, hr, rfl⟩
  · cases h

/-- Induction over executions. -/
theorem run_inv {P : St α → Prop} {Q : Act α → Prop}
    (hstep : ∀ s a s' ev, P s → Q a → step s a = .ok s' ev → P s')
    {s s' : St α} {as log} (hP : P s) (hQ : ∀ a ∈ as, Q a) (h : run s as = some (s', log)) : P s' := by
  induction as generalizing s log with
  | nil => simp only [run] at h; cases h; exact hP
  | cons a rest ih =>
    obtain ⟨s1, ev, log', h1, h2, rfl⟩ := run_cons h
    exact ih (hstep _ _ _ _ hP (hQ a (by simp)) h1) (fun b hb => hQ b (by simp [hb])) h2

theorem run_flow {s s' : St α} {as log} (h : run s as = some (s', log)) :
    s.q ++ log.flatMap Ev.ins = log.flatMap Ev.outs ++ s'.q := by
  induction as generalizing s log with
  | nil => simp only [run] at h; cases h; simp
  | cons a rest ih =>
    obtain ⟨s1, ev, log', h1, h2, rfl⟩ := run_cons h
    have e1 := step_flow h1
    have e2 := ih h2
    simp only [List.flatMap_append]
    rw [← List.append_assoc, e1, List.append_assoc, e2, List.append_assoc]

/-- Case analysis of a successful step. -/
macro "sq_cases" h:ident : tactic => `(tactic|
  (simp only [step, bodyPush, bodyTryPush, bodyForcePush, bodyPop, bodyTryPop, bodyTimedPop,
    bodyResumeNE, takeFront] at $h:ident <;> (repeat' split at $h:ident) <;> (try cases $h:ident)))

theorem step_len {s s' : St α} {a : Act α} {ev} (hm : 0 < s.max) (h : step s a = .ok s' ev) :
    s'.q.length ≤ max s.q.length s.max := by
  have hd := dropOld_len s.max hm s.q
  cases a <;> sq_cases h <;> simp_all <;> omega

theorem step_max {s s' : St α} {a : Act α} {ev} (h : step s a = .ok s' ev) :
    s'.max = (match a with | .setMax m => m | _ => s.max) := by
  cases a <;> sq_cases h <;> simp

theorem step_no_pushed {s s' : St α} {a : Act α} {ev} (hm : s.max = 0) (h : step s a = .ok s' ev) (t : Nat) (x : α) :
    Ev.pushed t x ∉ ev := by
  cases a <;> sq_cases h <;> simp_all

/-! ### Wake-ups -/

/-- Number of woken consumers that will take an item if there is one. -/
def takers (s : St α) : Nat := s.kne.countP willTake

/-- Wake-up invariant. -/
structure WInv (s : St α) : Prop where
  ne : s.wne ≠ [] → s.q.length ≤ takers s
  nf : s.wnf ≠ [] → s.max - s.q.length ≤ s.knf.length

@[simp] theorem notifyNE_wnf (s : St α) (p) : (notifyNE s p).wnf = s.wnf := by unfold notifyNE; split <;> rfl
@[simp] theorem notifyNE_knf (s : St α) (p) : (notifyNE s p).knf = s.knf := by unfold notifyNE; split <;> rfl
@[simp] theorem notifyNF_wne (s : St α) (p) : (notifyNF s p).wne = s.wne := by unfold notifyNF; split <;> rfl
@[simp] theorem notifyNF_kne (s : St α) (p) : (notifyNF s p).kne = s.kne := by unfold notifyNF; split <;> rfl

theorem mod_getElem?_none {β} {l : List β} {p : Nat} (h : l[p % l.length]? = none) : l = [] := by
  rcases l with _ | ⟨a, l⟩
  · rfl
  · exfalso
    have := Nat.mod_lt p (y := (a :: l).length) (by simp)
    rw [List.getElem?_eq_none_iff] at h
    omega

theorem notifyNE_takers (s : St α) (p) (h : (notifyNE s p).wne ≠ []) :
    s.wne ≠ [] ∧ takers (notifyNE s p) = takers s + 1 := by
  unfold notifyNE at *
  split at h
  · rename_i hn
    exact absurd (mod_getElem?_none hn) h
  · rename_i c hc
    refine ⟨?_, by simp [takers, willTake]⟩
    intro h0
    simp [h0] at hc

theorem notifyNF_room (s : St α) (p) (h : (notifyNF s p).wnf ≠ []) :
    s.wnf ≠ [] ∧ (notifyNF s p).knf.length = s.knf.length + 1 := by
  unfold notifyNF at *
  split at h
  · rename_i hn
    exact absurd (mod_getElem?_none hn) h
  · rename_i c hc
    refine ⟨?_, by simp⟩
    intro h0
    simp [h0] at hc

theorem countP_eraseIdx' {β} {l : List β} {i : Nat} {x : β} (f : β → Bool) (h : l[i]? = some x) :
    l.countP f = (l.eraseIdx i).countP f + (if f x then 1 else 0) := by
  induction l generalizing i with
  | nil => simp at h
  | cons a l ih =>
    cases i with
    | zero => simp at h; subst h; simp [List.countP_cons]
    | succ i =>
      simp at h
      have := ih h
      simp [List.countP_cons, this]; omega

theorem length_eraseIdx' {β} {l : List β} {i : Nat} {x : β} (h : l[i]? = some x) :
    l.length = (l.eraseIdx i).length + 1 := by
  obtain ⟨hi, rfl⟩ := List.getElem?_eq_some_iff.mp h
  rw [List.length_eraseIdx_of_lt hi]; omega

theorem ne_nil_of_eraseIdx {β} {l : List β} {i : Nat} (h : l.eraseIdx i ≠ []) : l ≠ [] := by
  rintro rfl; simp at h

theorem WInv.push {s : St α} {t x p s' ev} (hi : WInv s) (h : bodyPush s t x p = .ok s' ev) : WInv s' := by
  unfold bodyPush at h
  split at h <;> cases h
  · rename_i hlt
    constructor
    · intro hw
      obtain ⟨h1, h2⟩ := notifyNE_takers _ _ hw
      have := hi.ne h1
      rw [h2]; simp [takers] at *; omega
    · intro hw
      have := hi.nf (by simpa using hw)
      simp at *; omega
  · constructor
    · exact hi.ne
    · intro _; simp; omega

theorem WInv.append {s : St α} (hi : WInv s) (q : List α) (p)
    (h1 : q.length ≤ s.q.length) (h2 : s.max - (q.length + 1) ≤ s.max - s.q.length) (x : α) :
    WInv (notifyNE { s with q := q ++ [x] } p) := by
  constructor
  · intro hw
    obtain ⟨h3, h4⟩ := notifyNE_takers _ _ hw
    have := hi.ne h3
    rw [h4]; simp [takers] at *; omega
  · intro hw
    have := hi.nf (by simpa using hw)
    simp at *; omega

theorem WInv.take {s : St α} {x q} (hq : s.q = x :: q)
    (ne : s.wne ≠ [] → q.length ≤ takers s)
    (nf : s.wnf ≠ [] → s.max - s.q.length ≤ s.knf.length) (p) :
    WInv (notifyNF { s with q := q } p) := by
  constructor
  · intro hw
    have := ne (by simpa using hw)
    simpa [takers] using this
  · intro hw
    obtain ⟨h3, h4⟩ := notifyNF_room _ _ hw
    have := nf h3
    rw [h4]; simp [hq] at *; omega

theorem WInv.step {s s' : St α} {a ev} (hi : WInv s) (hm : 0 < s.max) (hn : NoLate a)
    (h : step s a = .ok s' ev) : WInv s' := by
  have hd := dropOld_len s.max hm s.q
  cases a with
  | call t op pick =>
    simp only [SQ.step] at h
    split at h
    · cases h
    cases op with
    | push x => exact hi.push h
    | tryPush x =>
      simp only [bodyTryPush] at h
      split at h <;> cases h
      · exact hi
      · exact hi.append _ _ (Nat.le_refl _) (by omega) x
    | forcePush x =>
      simp only [bodyForcePush] at h
      cases h
      exact hi.append _ _ (by omega) (by omega) x
    | pop =>
      simp only [bodyPop, takeFront] at h
      split at h
      · cases h
        rename_i hq
        exact ⟨by simp [hq], hi.nf⟩
      · split at h
        · cases h
        · rename_i x q hq
          cases h
          exact WInv.take hq (fun hw => by have := hi.ne hw; simp [hq] at this; omega) hi.nf _
    | tryPop =>
      simp only [bodyTryPop, takeFront] at h
      split at h
      · cases h; exact hi
      · split at h
        · cases h
        · rename_i x q hq
          cases h
          exact WInv.take hq (fun hw => by have := hi.ne hw; simp [hq] at this; omega) hi.nf _
    | timedPop to =>
      simp only [bodyTimedPop, takeFront] at h
      split at h
      · rename_i hq
        split at h <;> cases h
        · exact hi
        · exact ⟨by simp [hq], hi.nf⟩
      · split at h
        · cases h
        · rename_i x q hq
          cases h
          exact WInv.take hq (fun hw => by have := hi.ne hw; simp [hq] at this; omega) hi.nf _
  | spuriousNE i =>
    simp only [SQ.step] at h
    split at h <;> cases h
    refine ⟨fun hw => ?_, hi.nf⟩
    have := hi.ne (ne_nil_of_eraseIdx hw)
    simp [takers] at *; omega
  | expireNE i =>
    simp only [SQ.step] at h
    split at h
    · cases h
    · split at h <;> cases h
      refine ⟨fun hw => ?_, hi.nf⟩
      have := hi.ne (ne_nil_of_eraseIdx hw)
      simp [takers] at *; omega
  | spuriousNF i =>
    simp only [SQ.step] at h
    split at h <;> cases h
    refine ⟨hi.ne, fun hw => ?_⟩
    have := hi.nf (ne_nil_of_eraseIdx hw)
    simp at *; omega
  | resumeNE i late pick =>
    simp only [NoLate] at hn
    subst hn
    simp only [SQ.step] at h
    split at h
    · cases h
    · rename_i c why hk
      have hc := countP_eraseIdx' willTake hk
      simp only [bodyResumeNE, bodyPop, takeFront] at h
      split at h
      · rename_i ht
        split at h
        · rename_i hx
          have hx : why = .expired := by simpa using hx
          cases h
          refine ⟨fun hw => ?_, hi.nf⟩
          have := hi.ne hw
          simp [willTake, ht, hx, takers] at *; omega
        · split at h
          · cases h
          · rename_i x q hq
            cases h
            refine WInv.take (s := { s with kne := s.kne.eraseIdx i }) hq (fun hw => ?_) hi.nf _
            have := hi.ne hw
            have hq' : s.q = x :: q := hq
            simp [hq', takers] at *
            split at hc <;> omega
      · rename_i ht
        split at h
        · rename_i hq
          cases h
          exact ⟨by intro _; simp only [hq]; simp, hi.nf⟩
        · split at h
          · cases h
          · rename_i x q hq
            cases h
            refine WInv.take (s := { s with kne := s.kne.eraseIdx i }) hq (fun hw => ?_) hi.nf _
            have := hi.ne hw
            have hq' : s.q = x :: q := hq
            simp [hq', takers] at *
            split at hc <;> omega
  | resumeNF i pick =>
    simp only [SQ.step] at h
    split at h
    · cases h
    · rename_i t x hk
      have hc := length_eraseIdx' hk
      unfold bodyPush at h
      split at h <;> cases h
      · rename_i hlt
        constructor
        · intro hw
          obtain ⟨h1, h2⟩ := notifyNE_takers _ _ hw
          have := hi.ne h1
          rw [h2]; simp [takers] at *; omega
        · intro hw
          have := hi.nf (by simpa using hw)
          simp only [notifyNE_max, notifyNE_q, notifyNE_knf, List.length_append, List.length_singleton] at *; omega
      · constructor
        · exact hi.ne
        · intro _; simp at *; omega
  | setMax m => exact hn.elim

/-! ### Undefined behaviour -/

/-- Invariant for one consumer thread `c` and no spurious wake-up. -/
structure OneCons (c : Nat) (s : St α) : Prop where
  wne : ∀ x ∈ s.wne, x.t = c
  kne : ∀ x ∈ s.kne, x.1.t = c ∧ (x.2 = .notified → s.q ≠ []) ∧ x.2 ≠ .spurious
  one : s.wne.length + s.kne.length ≤ 1

theorem OneCons.notify {c : Nat} {s : St α} (hi : OneCons c s) (q : List α) (x : α) (p) :
    OneCons c (notifyNE { s with q := q ++ [x] } p) := by
  unfold notifyNE
  split
  · exact ⟨hi.wne, fun y hy => ⟨(hi.kne y hy).1, by simp, (hi.kne y hy).2.2⟩, hi.one⟩
  · rename_i d hd
    refine ⟨fun y hy => hi.wne y (List.mem_of_mem_eraseIdx hy), ?_, ?_⟩
    · intro y hy
      rcases List.mem_append.mp hy with hy | hy
      · exact ⟨(hi.kne y hy).1, by simp, (hi.kne y hy).2.2⟩
      · simp at hy
        subst hy
        exact ⟨hi.wne d (List.mem_of_getElem? hd), by simp, by simp⟩
    · have := length_eraseIdx' hd
      have h1 := hi.one
      simp at *; omega

theorem OneCons.mono {c : Nat} {s s' : St α} (hi : OneCons c s) (h1 : s'.q = s.q) (h2 : s'.wne = s.wne)
    (h3 : s'.kne = s.kne) : OneCons c s' :=
  ⟨h2 ▸ hi.wne, by rw [h3, h1]; exact hi.kne, by rw [h2, h3]; exact hi.one⟩

theorem OneCons.idle {c : Nat} {s : St α} (hi : OneCons c s) (hb : ¬ busy s c) : s.wne = [] ∧ s.kne = [] := by
  constructor
  · cases hw : s.wne with
    | nil => rfl
    | cons a l => exact absurd (Or.inl (by rw [hw]; simp [hi.wne a (by simp [hw])])) hb
  · cases hw : s.kne with
    | nil => rfl
    | cons a l =>
      exact absurd (Or.inr (Or.inl (by rw [hw]; simp [(hi.kne a (by simp [hw])).1]))) hb

theorem OneCons.step {c : Nat} {s : St α} {a} (hi : OneCons c s) (ho : OnlyCons c a) :
    SQ.step s a ≠ .ub ∧ ∀ s' ev, SQ.step s a = .ok s' ev → OneCons c s' := by
  cases a with
  | call t op pick =>
    simp only [SQ.step]
    split
    · simp
    rename_i hb
    cases op with
    | push x =>
      simp only [bodyPush]
      split
      · refine ⟨by simp, fun s' ev h => ?_⟩
        cases h; exact hi.notify _ _ _
      · refine ⟨by simp, fun s' ev h => ?_⟩
        cases h; exact hi.mono rfl rfl rfl
    | tryPush x =>
      simp only [bodyTryPush]
      split
      · refine ⟨by simp, fun s' ev h => ?_⟩
        cases h; exact hi
      · refine ⟨by simp, fun s' ev h => ?_⟩
        cases h; exact hi.notify _ _ _
    | forcePush x =>
      simp only [bodyForcePush]
      refine ⟨by simp, fun s' ev h => ?_⟩
      cases h; exact hi.notify _ _ _
    | pop =>
      obtain ⟨e1, e2⟩ := hi.idle (by simp only [OnlyCons] at ho; rwa [ho] at hb)
      simp only [OnlyCons] at ho
      subst ho
      simp only [bodyPop, takeFront]
      split
      · refine ⟨by simp, fun s' ev h => ?_⟩
        cases h; exact ⟨by simp [e1], by simp [e2], by simp [e1, e2]⟩
      · split
        · simp_all
        · refine ⟨by simp, fun s' ev h => ?_⟩
          cases h; exact ⟨by simp [e1], by simp [e2], by simp [e1, e2]⟩
    | tryPop =>
      obtain ⟨e1, e2⟩ := hi.idle (by simp only [OnlyCons] at ho; rwa [ho] at hb)
      simp only [bodyTryPop, takeFront]
      split
      · refine ⟨by simp, fun s' ev h => ?_⟩
        cases h; exact hi
      · split
        · simp_all
        · refine ⟨by simp, fun s' ev h => ?_⟩
          cases h; exact ⟨by simp [e1], by simp [e2], by simp [e1, e2]⟩
    | timedPop to =>
      obtain ⟨e1, e2⟩ := hi.idle (by simp only [OnlyCons] at ho; rwa [ho] at hb)
      simp only [OnlyCons] at ho
      subst ho
      simp only [bodyTimedPop, takeFront]
      split
      · split
        · refine ⟨by simp, fun s' ev h => ?_⟩
          cases h; exact hi
        · refine ⟨by simp, fun s' ev h => ?_⟩
          cases h; exact ⟨by simp [e1], by simp [e2], by simp [e1, e2]⟩
      · split
        · simp_all
        · refine ⟨by simp, fun s' ev h => ?_⟩
          cases h; exact ⟨by simp [e1], by simp [e2], by simp [e1, e2]⟩
  | spuriousNE i => exact ho.elim
  | expireNE i =>
    simp only [SQ.step]
    split
    · simp
    · rename_i d hd
      split
      · refine ⟨by simp, fun s' ev h => ?_⟩
        cases h
        have hl := length_eraseIdx' hd
        have h1 := hi.one
        refine ⟨fun y hy => hi.wne y (List.mem_of_mem_eraseIdx hy), ?_, by simp at *; omega⟩
        intro y hy
        rcases List.mem_append.mp hy with hy | hy
        · exact hi.kne y hy
        · simp at hy; subst hy
          exact ⟨hi.wne d (List.mem_of_getElem? hd), by simp, by simp⟩
      · simp
  | spuriousNF i =>
    simp only [SQ.step]
    split
    · simp
    · refine ⟨by simp, fun s' ev h => ?_⟩
      cases h; exact hi.mono rfl rfl rfl
  | resumeNE i late pick =>
    simp only [SQ.step]
    split
    · simp
    · rename_i d why hk
      have hm := hi.kne _ (List.mem_of_getElem? hk)
      have hl := length_eraseIdx' hk
      have h1 := hi.one
      have e1 : s.wne = [] := List.length_eq_zero_iff.mp (by omega)
      have e2 : s.kne.eraseIdx i = [] := List.length_eq_zero_iff.mp (by omega)
      have hI : ∀ q, OneCons c { s with q := q, kne := s.kne.eraseIdx i } := fun q =>
        ⟨by simp [e1], by simp [e2], by simp [e1, e2]⟩
      simp only [bodyResumeNE, bodyPop, takeFront]
      split
      · split
        · refine ⟨by simp, fun s' ev h => ?_⟩
          cases h; exact hI _
        · rename_i hx
          split
          · rename_i hq
            exfalso
            have : why = .notified := by
              rcases why with _ | _ | _
              · rfl
              · exact absurd rfl hm.2.2
              · simp at hx
            exact hm.2.1 this hq
          · refine ⟨by simp, fun s' ev h => ?_⟩
            cases h
            rename_i q0 _; exact (hI q0).mono (by simp) (by simp) (by simp)
      · split
        · refine ⟨by simp, fun s' ev h => ?_⟩
          cases h
          exact ⟨by simpa [e1] using hm.1, by simp [e2], by simp [e1, e2]⟩
        · split
          · simp_all
          · refine ⟨by simp, fun s' ev h => ?_⟩
            cases h
            rename_i q0 _; exact (hI q0).mono (by simp) (by simp) (by simp)
  | resumeNF i pick =>
    simp only [SQ.step]
    split
    · simp
    · simp only [bodyPush]
      split
      · refine ⟨by simp, fun s' ev h => ?_⟩
        cases h
        exact (hi.mono (s' := { s with knf := s.knf.eraseIdx i }) rfl rfl rfl).notify _ _ _
      · refine ⟨by simp, fun s' ev h => ?_⟩
        cases h; exact hi.mono rfl rfl rfl
  | setMax m =>
    simp only [SQ.step]
    refine ⟨by simp, fun s' ev h => ?_⟩
    cases h; exact hi.mono rfl rfl rfl

theorem oneCons_noUB {c : Nat} {s : St α} {as} (hi : OneCons c s) (ho : ∀ a ∈ as, OnlyCons c a) :
    ¬ HitsUB s as := by
  induction as generalizing s with
  | nil => simp [HitsUB]
  | cons a rest ih =>
    have h := hi.step (ho a (by simp))
    simp only [HitsUB]
    split
    · exact absurd ‹_› h.1
    · rename_i s' ev hs
      exact ih (h.2 _ _ hs) (fun b hb => ho b (by simp [hb]))
    · simp

end Verif.SQ
