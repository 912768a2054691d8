import Verif.Lemmas.FsmReentryHist

/-! Observers and actions that keep to the rules (`Ok`): no invalid iterator is used, and one-off actions are run once. -/

namespace Verif.FsmR
open Verif Verif.Fsm

/-- The frame does not enter a state whose one-off actions are being run below it. -/
def Apart (f : Frame) (below : List Frame) : Prop :=
  match f with
  | .notify _ n true _ _ => ∀ g ∈ below, ∀ o, g.over o .once n = false
  | .acts _ o n .once _ _ => ∀ g ∈ below, g.over o .once n = false
  | _ => True

def Wf : List Frame → Prop
  | [] => True
  | f :: r => Apart f r ∧ Wf r

theorem Wf.suffix {p l : List Frame} (h : Wf (p ++ l)) : Wf l := by
  induction p with
  | nil => exact h
  | cons f p ih => exact ih h.2

/-- The loop knows the version of its vector. -/
def Fits (s : St) : Frame → Prop
  | .notify _ _ _ v _ => v = s.over
  | .acts _ o n k v _ => v = s.lver o k n
  | .user => True

structure OInv (s : St) : Prop where
  bad : s.bad = false
  fits : ∀ f ∈ s.stack, Fits s f
  wf : Wf s.stack

theorem touch_other {f : Nat → Kind → String → Nat} {o o' : Nat} {k k' : Kind} {n n' : String} (h : ¬ (o' = o ∧ k' = k ∧ n' = n)) : touch f o k n o' k' n' = f o' k' n' := if_neg h

theorem versions_other {s : St} {o o' : Nat} {op : LOp} {k' : Kind} {n' : String} (h : o' = o → ¬ changes (s.lst o).machine op k' n') : versions s o op o' k' n' = s.lver o' k' n' := by
  cases op with
  | addAction m a => exact touch_other fun e => h e.1 ⟨e.2.1, e.2.2⟩
  | addOneOff m a => exact touch_other fun e => h e.1 ⟨e.2.1, e.2.2⟩
  | addPeriodic m a => exact touch_other fun e => h e.1 ⟨e.2.1, e.2.2⟩
  | removeState m => exact touch_other fun e => h e.1 ⟨e.2.1, e.2.2⟩
  | removeAll => exact if_neg fun e => h e.1 e.2
  | notified => rfl

theorem over_acts {id o o' : Nat} {n n' : String} {k k' : Kind} {v : Nat} {r : List Nat} : (Frame.acts id o n k v r).over o' k' n' = true ↔ o = o' ∧ k = k' ∧ n = n' := by
  simp [Frame.over]

/-- A loop over actions begins. -/
theorem OInv.startPhase {s : St} {o : Nat} {n : String} {k : Kind} {below : List Frame} (hb : s.bad = false) (hf : ∀ f ∈ below, Fits s f) (hw : Wf below)
    (ha : k = .once → ∀ g ∈ below, g.over o .once n = false) : OInv (startPhase s o n k below) := by
  refine ⟨hb, ?_, ?_, hw⟩
  · intro f h
    rcases List.mem_cons.mp h with rfl | h
    · rfl
    · have := hf f h
      cases f <;> exact this
  · cases k with
    | once => exact ha rfl
    | _ => trivial

/-- The version of `_observers` after a call. -/
def overOf (s : St) (op : Op) : Nat := match op with
  | .registerObserver _ | .unregisterObservers => s.over + 1
  | _ => s.over

theorem OInv.step {lis : Nat → Bool} {s s' : St} {a : Act} (h : OInv s) (hok : Ok s a) (hs : FsmR.step lis s a = some s') : OInv s' := by
  unfold FsmR.step at hs
  rw [if_neg (by rw [h.bad]; nofun)] at hs
  cases a with
  | op x =>
    simp only at hs
    split at hs
    · cases hs
      cases x with
      | m op =>
        have hv : ∀ f ∈ s.stack, ∀ (t : St), t.lver = s.lver → (t.over = s.over ∨ (∃ o, op = .registerObserver o) ∨ op = .unregisterObservers) → Fits t f := by
          intro f hf t e1 e2
          have h1 := h.fits f hf
          cases f with
          | user => trivial
          | acts => show _ = t.lver _ _ _; rw [e1]; exact h1
          | notify =>
            rcases e2 with e2 | e2
            · show _ = t.over; rw [e2]; exact h1
            · cases hok.1 e2 _ hf
        have ho : overOf s op = s.over ∨ (∃ o, op = .registerObserver o) ∨ op = .unregisterObservers := by
          cases op with
          | registerObserver o => exact .inr (.inl ⟨o, rfl⟩)
          | unregisterObservers => exact .inr (.inr rfl)
          | _ => exact .inl rfl
        simp only [call]
        cases e : notice s.m op with
        | none => exact ⟨h.bad, fun f hf => hv f hf _ rfl ho, h.wf⟩
        | some nc =>
          obtain ⟨n, ch⟩ := nc
          dsimp only
          refine ⟨h.bad, ?_, ?_, h.wf⟩
          · intro f hf
            rcases List.mem_cons.mp hf with rfl | hf
            · rfl
            · exact hv f hf _ rfl ho
          · cases ch with
            | false => trivial
            | true => exact fun g hg o => hok.2 n e g hg o
      | l o op =>
        have hv : ∀ op' : LOp, (∀ k n, changes (s.lst o).machine op' k n → ∀ f ∈ s.stack, f.over o k n = false) → ∀ f ∈ s.stack, ∀ (t : St), t.lver = versions s o op' → t.over = s.over → Fits t f := by
          intro op' hok f hf t e1 e2
          have h1 := h.fits f hf
          cases f with
          | user => trivial
          | notify => show _ = t.over; rw [e2]; exact h1
          | acts id o2 n2 k2 v2 r2 =>
            show v2 = t.lver o2 k2 n2
            rw [e1, versions_other]
            · exact h1
            · intro eo hc
              have := hok k2 n2 hc _ hf
              rw [over_acts.mpr ⟨eo, rfl, rfl⟩] at this
              cases this
        cases op with
        | notified n ch =>
          simp only [call, listen]
          refine OInv.startPhase h.bad ?_ h.wf ?_
          · intro f hf
            have := h.fits f hf
            cases f <;> exact this
          · intro hk g hg
            cases ch with
            | true => exact hok .once n ⟨rfl, rfl, rfl⟩ g hg
            | false => cases hk
        | _ => exact ⟨h.bad, fun f hf => hv _ hok f hf _ rfl rfl, h.wf⟩
    · cases hs
  | tick =>
    have hfit := h.fits
    have hwf := h.wf
    simp only [tick] at hs
    split at hs
    · rename_i id n ch v rest below hst
      rw [hst] at hfit hwf
      have hv : v = s.over := hfit _ (List.mem_cons_self ..)
      rw [if_neg (by rw [hv]; simp)] at hs
      have hbel : ∀ f ∈ below, Fits s f := fun f hf => hfit f (List.mem_cons_of_mem _ hf)
      split at hs
      · cases hs
        refine ⟨h.bad, fun f hf => ?_, hwf.2⟩
        have := hbel f hf
        cases f <;> exact this
      · rename_i o r
        have hwf' : Wf (.notify id n ch v r :: below) := ⟨by have := hwf.1; cases ch <;> exact this, hwf.2⟩
        have hf' : ∀ f ∈ Frame.notify id n ch v r :: below, Fits s f := by
          intro f hf
          rcases List.mem_cons.mp hf with rfl | hf
          · exact hv
          · exact hbel f hf
        split at hs
        · cases hs
          refine OInv.startPhase h.bad (fun f hf => ?_) hwf' ?_
          · have := hf' f hf
            cases f <;> exact this
          · intro hk g hg
            cases ch with
            | false => cases hk
            | true =>
              rcases List.mem_cons.mp hg with rfl | hg
              · rfl
              · exact hwf.1 g hg o
        · cases hs
          refine ⟨h.bad, fun f hf => ?_, trivial, hwf'⟩
          rcases List.mem_cons.mp hf with rfl | hf
          · trivial
          · have := hf' f hf
            cases f <;> exact this
    · rename_i id o n k v rest below hst
      rw [hst] at hfit hwf
      have hv : v = s.lver o k n := hfit _ (List.mem_cons_self ..)
      rw [if_neg (by rw [hv]; simp)] at hs
      have hbel : ∀ f ∈ below, Fits s f := fun f hf => hfit f (List.mem_cons_of_mem _ hf)
      split at hs
      · rename_i a r
        cases hs
        refine ⟨h.bad, fun f hf => ?_, trivial, by have := hwf.1; cases k <;> exact this, hwf.2⟩
        rcases List.mem_cons.mp hf with rfl | hf
        · trivial
        · rcases List.mem_cons.mp hf with rfl | hf
          · exact hv
          · have := hbel f hf
            cases f <;> exact this
      · cases k with
        | once =>
          cases hs
          refine OInv.startPhase h.bad (fun f hf => ?_) hwf.2 nofun
          have h1 := hbel f hf
          cases f with
          | user => trivial
          | notify => exact h1
          | acts id2 o2 n2 k2 v2 r2 =>
            show v2 = touch s.lver o .once n o2 k2 n2
            rw [touch_other]
            · exact h1
            · intro ⟨e1, e2, e3⟩
              have := hwf.1 _ hf
              rw [over_acts.mpr ⟨e1, e2, e3⟩] at this
              cases this
        | entry =>
          cases hs
          refine OInv.startPhase h.bad (fun f hf => ?_) hwf.2 nofun
          have := hbel f hf
          cases f <;> exact this
        | each =>
          cases hs
          refine ⟨h.bad, fun f hf => ?_, hwf.2⟩
          have := hbel f hf
          cases f <;> exact this
    · cases hs
  | ret =>
    simp only at hs
    split at hs
    · rename_i below hst
      cases hs
      have hfit := h.fits
      have hwf := h.wf
      rw [hst] at hfit hwf
      refine ⟨h.bad, fun f hf => ?_, hwf.2⟩
      have := hfit f (List.mem_cons_of_mem _ hf)
      cases f <;> exact this
    · cases hs
  | throw =>
    simp only at hs
    split at hs
    · rename_i below hst
      cases hs
      have hfit := h.fits
      have hwf := h.wf
      rw [hst] at hfit hwf
      obtain ⟨pre, e⟩ := unwind_suffix below
      refine ⟨h.bad, fun f hf => ?_, ?_⟩
      · have := hfit f (List.mem_cons_of_mem _ (by rw [e]; exact List.mem_append_right _ hf))
        cases f <;> exact this
      · have := hwf.2
        rw [e] at this
        exact this.suffix
    · cases hs

theorem Reach.oinv {lis : Nat → Bool} {c : Cfg} {name : Nat → String} {s : St} (h : Reach lis c name Ok s) : OInv s := by
  induction h with
  | init => exact ⟨rfl, nofun, trivial⟩
  | step _ hok hs ih => exact ih.step hok hs

/-! ### One-off actions -/

/-- `waiting`, of a stack and the listeners. -/
def rem (lst : Nat → L) (stack : List Frame) (o : Nat) (n : String) : List Nat :=
  match stack.find? (Frame.over o .once n) with
  | some (.acts _ _ _ _ _ rest) => rest
  | _ => (lst o).oneOff n

theorem rem_skip (lst : Nat → L) {f : Frame} (stack : List Frame) {o : Nat} {n : String} (h : f.over o .once n = false) : rem lst (f :: stack) o n = rem lst stack o n := by
  unfold rem
  rw [List.find?_cons_of_neg (by simp [h])]

theorem rem_none (lst : Nat → L) {stack : List Frame} {o : Nat} {n : String} (h : ∀ f ∈ stack, f.over o .once n = false) : rem lst stack o n = (lst o).oneOff n := by
  unfold rem
  rw [List.find?_eq_none.mpr (by simpa using h)]

theorem rem_top (lst : Nat → L) (stack : List Frame) (id o : Nat) (n : String) (v : Nat) (r : List Nat) : rem lst (.acts id o n .once v r :: stack) o n = r := by
  unfold rem
  rw [List.find?_cons_of_pos (by simp [Frame.over])]

theorem rem_lst {lst lst' : Nat → L} {stack : List Frame} {o : Nat} {n : String} (h : (lst' o).oneOff n = (lst o).oneOff n) : rem lst' stack o n = rem lst stack o n := by
  unfold rem
  rw [h]

theorem added_snoc (name : Nat → String) (o : Nat) (n : String) (a : Nat) (h : List Ev) (e : Ev) :
    added name o n a (h ++ [e]) = added name o n a h + added name o n a [e] := List.countP_append

theorem ran_snoc (o : Nat) (n : String) (a : Nat) (h : List Ev) (e : Ev) : ran o n a (h ++ [e]) = ran o n a h + ran o n a [e] := List.countP_append

def AInv (name : Nat → String) (s : St) : Prop := ∀ o n a, ran o n a s.hist + (rem s.lst s.stack o n).count a = added name o n a s.hist

/-- The rest of the one-off actions does not change when the loop over them begins. -/
theorem rem_phase (s : St) (o : Nat) (n : String) (k : Kind) (below : List Frame) (h : k = .once → ∀ f ∈ below, f.over o .once n = false) (o' : Nat) (n' : String) :
    rem (startPhase s o n k below).lst (startPhase s o n k below).stack o' n' = rem s.lst below o' n' := by
  show rem s.lst (.acts s.nid o n k (s.lver o k n) (vec (s.lst o) k n) :: below) o' n' = _
  by_cases e : o = o' ∧ k = .once ∧ n = n'
  · obtain ⟨rfl, rfl, rfl⟩ := e
    rw [rem_top, rem_none _ (h rfl)]
    rfl
  · exact rem_skip _ _ (Bool.eq_false_iff.mpr fun he => e (over_acts.mp he))

theorem AInv.startPhase {name : Nat → String} {s : St} {o : Nat} {n : String} {k : Kind} {below : List Frame} (h : k = .once → ∀ f ∈ below, f.over o .once n = false)
    (ha : ∀ o n a, ran o n a s.hist + (rem s.lst below o n).count a = added name o n a s.hist) : AInv name (FsmR.startPhase s o n k below) := by
  intro o' n' a
  rw [rem_phase s o n k below h]
  show ran o' n' a (s.hist ++ [_]) + _ = added name o' n' a (s.hist ++ [_])
  rw [ran_snoc, added_snoc]
  exact ha o' n' a

theorem AInv.step {lis : Nat → Bool} {c : Cfg} {name : Nat → String} {s s' : St} {a : Act} (hi : HInv lis c name s) (ho : OInv s) (h : AInv name s) (hok : Ok s a) (ht : a ≠ .throw)
    (hs : FsmR.step lis s a = some s') : AInv name s' := by
  unfold FsmR.step at hs
  rw [if_neg (by rw [ho.bad]; nofun)] at hs
  cases a with
  | op x =>
    simp only at hs
    split at hs
    · cases hs
      cases x with
      | m op =>
        have h1 : ∀ o n a, ran o n a (s.hist ++ [.op (.m op)]) + (rem s.lst s.stack o n).count a = added name o n a (s.hist ++ [.op (.m op)]) := by
          intro o n a; rw [ran_snoc, added_snoc]; exact h o n a
        simp only [call]
        cases e : notice s.m op with
        | none => exact h1
        | some nc =>
          intro o n a
          dsimp only
          rw [rem_skip _ _ rfl, ran_snoc, added_snoc]
          exact h1 o n a
      | l o op =>
        cases op with
        | notified n ch =>
          refine AInv.startPhase ?_ ?_
          · intro hk f hf
            cases ch with
            | true => exact hok .once n ⟨rfl, rfl, rfl⟩ f hf
            | false => cases hk
          · intro o' n' a
            show ran o' n' a (s.hist ++ [_]) + _ = added name o' n' a (s.hist ++ [_])
            rw [ran_snoc, added_snoc]; exact h o' n' a
        | addOneOff m b =>
          intro o' n' a
          show ran o' n' a (s.hist ++ [_]) + _ = added name o' n' a (s.hist ++ [_])
          rw [ran_snoc, added_snoc, ← h o' n' a]
          by_cases e : o = o' ∧ completeName (name o) m = n'
          · obtain ⟨rfl, rfl⟩ := e
            have hf : ∀ f ∈ s.stack, f.over o .once (completeName (name o) m) = false := fun f hf => hok .once _ ⟨rfl, by rw [hi.nm]⟩ f hf
            rw [rem_none _ hf]
            have e1 : (rem (call s (.l o (.addOneOff m b))).lst (call s (.l o (.addOneOff m b))).stack o (completeName (name o) m)) = (s.lst o).oneOff (completeName (name o) m) ++ [b] := by
              show rem (upd s.lst o _) s.stack o _ = _
              rw [rem_none _ hf]
              simp [lstep, hi.nm]
            rw [e1, List.count_append]
            simp only [ran, added, List.countP_singleton, List.count_singleton, Bool.false_eq_true, if_false]
            simp [beq_iff_eq]
            omega
          · have e1 : rem (call s (.l o (.addOneOff m b))).lst (call s (.l o (.addOneOff m b))).stack o' n' = rem s.lst s.stack o' n' := by
              refine rem_lst ?_
              show (upd s.lst o _ o').oneOff n' = _
              by_cases eo : o' = o
              · subst eo
                simp only [upd_same, lstep, hi.nm]
                exact upd_other _ _ fun en => e ⟨rfl, en.symm⟩
              · rw [upd_other _ _ eo]
            rw [e1]
            have e2 : added name o' n' a [.op (.l o (.addOneOff m b))] = 0 := by
              simp only [added, List.countP_singleton]
              rw [if_neg]
              simp only [decide_eq_true_eq, not_and]
              intro eo; subst eo; intro en; exact absurd ⟨rfl, en⟩ e
            rw [e2]
            simp [ran]
        | _ =>
          intro o' n' a
          show ran o' n' a (s.hist ++ [_]) + _ = added name o' n' a (s.hist ++ [_])
          rw [ran_snoc, added_snoc, ← h o' n' a]
          have e1 : ∀ l : L, l.oneOff = (s.lst o).oneOff → rem (upd s.lst o l) s.stack o' n' = rem s.lst s.stack o' n' := by
            intro l hl
            refine rem_lst ?_
            by_cases eo : o' = o
            · subst eo; rw [upd_same, hl]
            · rw [upd_other _ _ eo]
          have e2 := fun op' => e1 (lstep (s.lst o) op').1
          simp only [call]
          rw [e2 _ (by rfl)]
          simp [ran, added]
    · cases hs
  | tick =>
    have hwf := ho.wf
    have hfit := ho.fits
    simp only [tick] at hs
    split at hs
    · rename_i id n ch v rest below hst
      rw [hst] at hwf hfit
      have hv : v = s.over := hfit _ (List.mem_cons_self ..)
      rw [if_neg (by rw [hv]; simp)] at hs
      have hb : ∀ o n a, ran o n a s.hist + (rem s.lst below o n).count a = added name o n a s.hist := by
        intro o n a
        have := h o n a
        rw [hst, rem_skip _ _ rfl] at this
        exact this
      split at hs
      · cases hs
        intro o n a
        dsimp only
        rw [ran_snoc, added_snoc]; exact hb o n a
      · rename_i o r
        have hb' : ∀ o' n' a, ran o' n' a (s.hist ++ [.call id o n ch]) + (rem s.lst (.notify id n ch v r :: below) o' n').count a = added name o' n' a (s.hist ++ [.call id o n ch]) := by
          intro o' n' a
          rw [ran_snoc, added_snoc, rem_skip _ _ rfl]; exact hb o' n' a
        split at hs
        · cases hs
          refine AInv.startPhase ?_ hb'
          intro hk g hg
          cases ch with
          | false => cases hk
          | true =>
            rcases List.mem_cons.mp hg with rfl | hg
            · rfl
            · exact hwf.1 g hg o
        · cases hs
          intro o' n' a
          dsimp only
          rw [rem_skip _ _ rfl]
          exact hb' o' n' a
    · rename_i id o n k v rest below hst
      rw [hst] at hwf hfit
      have hv : v = s.lver o k n := hfit _ (List.mem_cons_self ..)
      rw [if_neg (by rw [hv]; simp)] at hs
      have hb : ∀ o' n' a, ran o' n' a s.hist + (rem s.lst (.acts id o n k v rest :: below) o' n').count a = added name o' n' a s.hist := by
        intro o' n' a
        have := h o' n' a
        rw [hst] at this
        exact this
      split at hs
      · rename_i b r
        cases hs
        intro o' n' a
        dsimp only
        rw [rem_skip _ _ rfl, ran_snoc, added_snoc, ← hb o' n' a]
        by_cases e : o = o' ∧ k = .once ∧ n = n'
        · obtain ⟨rfl, rfl, rfl⟩ := e
          rw [rem_top, rem_top, List.count_cons]
          simp only [ran, added, List.countP_singleton, Bool.false_eq_true, if_false]
          simp [beq_iff_eq]
          omega
        · have hno : ∀ r', (Frame.acts id o n k v r').over o' .once n' = false := fun r' => Bool.eq_false_iff.mpr fun he => e (over_acts.mp he)
          rw [rem_skip _ _ (hno _), rem_skip _ _ (hno _)]
          have e2 : ran o' n' a [.act id o n k b] = 0 := by
            cases k with
            | once =>
              simp only [ran, List.countP_singleton]
              rw [if_neg]
              simp only [decide_eq_true_eq, not_and]
              intro e1 e3; exact absurd ⟨e1, rfl, e3⟩ e
            | _ => rfl
          rw [e2]
          simp [added]
      · cases k with
        | once =>
          cases hs
          refine AInv.startPhase nofun ?_
          intro o' n' a
          show ran o' n' a (s.hist ++ [_]) + _ = added name o' n' a (s.hist ++ [_])
          rw [ran_snoc, added_snoc]
          have h1 := hb o' n' a
          by_cases e : o = o' ∧ n = n'
          · obtain ⟨rfl, rfl⟩ := e
            rw [rem_top] at h1
            dsimp only
            rw [rem_none _ hwf.1, upd_same]
            simp only [upd_same]
            exact h1
          · rw [rem_skip _ _ (Bool.eq_false_iff.mpr fun he => e ⟨(over_acts.mp he).1, (over_acts.mp he).2.2⟩)] at h1
            have e1 : rem (upd s.lst o { s.lst o with oneOff := upd (s.lst o).oneOff n [] }) below o' n' = rem s.lst below o' n' := by
              refine rem_lst ?_
              by_cases eo : o' = o
              · subst eo
                simp only [upd_same]
                exact upd_other _ _ fun en => e ⟨rfl, en.symm⟩
              · rw [upd_other _ _ eo]
            dsimp only
            rw [e1]
            exact h1
        | entry =>
          cases hs
          refine AInv.startPhase nofun ?_
          intro o' n' a
          show ran o' n' a (s.hist ++ [_]) + _ = added name o' n' a (s.hist ++ [_])
          rw [ran_snoc, added_snoc]
          have h1 := hb o' n' a
          rw [rem_skip _ _ (Bool.eq_false_iff.mpr fun he => by cases (over_acts.mp he).2.1)] at h1
          exact h1
        | each =>
          cases hs
          intro o' n' a
          show ran o' n' a (s.hist ++ [_]) + _ = added name o' n' a (s.hist ++ [_])
          rw [ran_snoc, added_snoc]
          have h1 := hb o' n' a
          rw [rem_skip _ _ (Bool.eq_false_iff.mpr fun he => by cases (over_acts.mp he).2.1)] at h1
          exact h1
    · cases hs
  | ret =>
    simp only at hs
    split at hs
    · rename_i below hst
      cases hs
      intro o n a
      have := h o n a
      rw [hst, rem_skip _ _ rfl] at this
      exact this
    · cases hs
  | throw => exact absurd rfl ht

theorem Reach.ainv {lis : Nat → Bool} {c : Cfg} {name : Nat → String} {s : St} (h : Reach lis c name Ok s) (ht : .threw ∉ s.hist) : AInv name s := by
  induction h with
  | init => intro o n a; rfl
  | @step s s' a h hok hs ih =>
    have hgrow : s.hist <+: s'.hist := by
      unfold FsmR.step at hs
      split at hs
      · cases hs
      cases a with
      | op x =>
        simp only at hs
        split at hs
        · cases hs
          cases x with
          | m op => simp only [call]; split <;> simp only [List.append_assoc, List.prefix_append]
          | l o op => cases op <;> simp only [call, listen, FsmR.startPhase, List.append_assoc, List.prefix_append]
        · cases hs
      | tick =>
        simp only [tick] at hs
        (repeat' split at hs) <;> cases hs <;> simp only [listen, FsmR.startPhase, List.append_assoc, List.prefix_append, List.prefix_rfl]
      | ret =>
        simp only at hs
        split at hs
        · cases hs; exact List.prefix_rfl
        · cases hs
      | throw =>
        simp only at hs
        split at hs
        · cases hs; exact List.prefix_append ..
        · cases hs
    have ht' : .threw ∉ s.hist := fun hm => ht (hgrow.subset hm)
    refine AInv.step h.hinv h.oinv (ih ht') hok ?_ hs
    rintro rfl
    unfold FsmR.step at hs
    split at hs
    · cases hs
    · simp only at hs
      split at hs
      · cases hs; exact ht (by simp)
      · cases hs

/-! ### The rules are needed -/

/-- Versions only grow. -/
def Older (s s' : St) : Prop := s.over ≤ s'.over ∧ ∀ o k n, s.lver o k n ≤ s'.lver o k n

theorem Older.rfl' (s : St) : Older s s := ⟨Nat.le_refl _, fun _ _ _ => Nat.le_refl _⟩

theorem touch_le (f : Nat → Kind → String → Nat) (o : Nat) (k : Kind) (n : String) (o' : Nat) (k' : Kind) (n' : String) : f o' k' n' ≤ touch f o k n o' k' n' := by
  unfold touch; split <;> omega

theorem versions_le (s : St) (o : Nat) (op : LOp) (o' : Nat) (k' : Kind) (n' : String) : s.lver o' k' n' ≤ versions s o op o' k' n' := by
  cases op with
  | removeAll => simp only [versions]; split <;> omega
  | notified => exact Nat.le_refl _
  | _ => exact touch_le ..

theorem overOf_le (s : St) (op : Op) : s.over ≤ overOf s op := by unfold overOf; split <;> omega

/-- A loop does not know a version that is still to come. -/
def Known (s : St) : Frame → Prop
  | .notify _ _ _ v _ => v ≤ s.over
  | .acts _ o n k v _ => v ≤ s.lver o k n
  | .user => True

theorem Known.older {s s' : St} {f : Frame} (h : Known s f) (ho : Older s s') : Known s' f := by
  cases f with
  | notify => exact Nat.le_trans h ho.1
  | acts => exact Nat.le_trans h (ho.2 _ _ _)
  | user => trivial

theorem call_l {s : St} {o : Nat} {op : LOp} (hn : ∀ m ch, op ≠ .notified m ch) : (call s (.l o op)).lver = versions s o op := by
  cases op with
  | notified m ch => exact absurd rfl (hn m ch)
  | _ => rfl

theorem call_l_older {s : St} {o : Nat} {op : LOp} (hn : ∀ m ch, op ≠ .notified m ch) : Older s (call s (.l o op)) ∧ (call s (.l o op)).stack = s.stack := by
  refine ⟨⟨?_, fun o' k' n' => ?_⟩, ?_⟩
  · cases op with
    | notified m ch => exact absurd rfl (hn m ch)
    | _ => exact Nat.le_refl _
  · rw [call_l hn]; exact versions_le ..
  · cases op with
    | notified m ch => exact absurd rfl (hn m ch)
    | _ => rfl

theorem step_older {lis : Nat → Bool} {s s' : St} {a : Act} (hs : step lis s a = some s') :
    Older s s' ∧ ((∀ f ∈ s.stack, Known s f) → ∀ f ∈ s'.stack, Known s' f) := by
  have keep : ∀ {t : St}, Older s t → (∀ f ∈ s.stack, Known s f) → (∀ f ∈ t.stack, f ∈ s.stack ∨ f = .user ∨ Known t f) → ∀ f ∈ t.stack, Known t f := by
    intro t ho hk hsub f hf
    rcases hsub f hf with h | rfl | h
    · exact (hk f h).older ho
    · trivial
    · exact h
  unfold step at hs
  split at hs
  · cases hs
  cases a with
  | op x =>
    simp only at hs
    split at hs
    · cases hs
      cases x with
      | m op =>
        have ho : s.over ≤ overOf s op := overOf_le s op
        simp only [call]
        cases e : notice s.m op with
        | none =>
          have h1 : Older s { s with m := (Fsm.step s.m op).1, over := overOf s op, hist := s.hist ++ [.op (.m op)] } := ⟨ho, fun _ _ _ => Nat.le_refl _⟩
          exact ⟨h1, fun hk => keep h1 hk fun f hf => .inl hf⟩
        | some nc =>
          obtain ⟨n, ch⟩ := nc
          refine ⟨⟨ho, fun _ _ _ => Nat.le_refl _⟩, fun hk => keep ⟨ho, fun _ _ _ => Nat.le_refl _⟩ hk fun f hf => ?_⟩
          rcases List.mem_cons.mp hf with rfl | hf
          · exact .inr (.inr (Nat.le_refl _))
          · exact .inl hf
      | l o op =>
        by_cases hno : ∃ n ch, op = .notified n ch
        · obtain ⟨n, ch, rfl⟩ := hno
          refine ⟨Older.rfl' _, fun hk => keep (Older.rfl' _) hk fun f hf => ?_⟩
          rcases List.mem_cons.mp hf with rfl | hf
          · exact .inr (.inr (Nat.le_refl _))
          · exact .inl hf
        · obtain ⟨h1, h2⟩ := call_l_older (s := s) (o := o) (op := op) fun m ch e => hno ⟨m, ch, e⟩
          exact ⟨h1, fun hk => keep h1 hk fun f hf => .inl (h2 ▸ hf)⟩
    · cases hs
  | tick =>
    simp only [tick] at hs
    split at hs
    · rename_i id n ch v rest below hst
      split at hs
      · cases hs; exact ⟨Older.rfl' _, fun hk => hk⟩
      · rename_i hv
        have hv : s.over = v := Classical.not_not.mp hv
        split at hs
        · cases hs; exact ⟨Older.rfl' _, fun hk => keep (Older.rfl' _) hk fun f hf => .inl (by rw [hst]; exact List.mem_cons_of_mem _ hf)⟩
        · rename_i o r
          have sub : ∀ {t : St}, t.over = s.over → ∀ f ∈ Frame.notify id n ch v r :: below, f ∈ s.stack ∨ f = .user ∨ Known t f := by
            intro t et f hf
            rcases List.mem_cons.mp hf with rfl | hf
            · exact .inr (.inr (by show v ≤ t.over; omega))
            · exact .inl (by rw [hst]; exact List.mem_cons_of_mem _ hf)
          split at hs
          · cases hs
            refine ⟨Older.rfl' _, fun hk => keep (Older.rfl' _) hk fun f hf => ?_⟩
            rcases List.mem_cons.mp hf with rfl | hf
            · exact .inr (.inr (Nat.le_refl _))
            · exact sub rfl f hf
          · cases hs
            refine ⟨Older.rfl' _, fun hk => keep (Older.rfl' _) hk fun f hf => ?_⟩
            rcases List.mem_cons.mp hf with rfl | hf
            · exact .inr (.inl rfl)
            · exact sub rfl f hf
    · rename_i id o n k v rest below hst
      split at hs
      · cases hs; exact ⟨Older.rfl' _, fun hk => hk⟩
      · rename_i hv
        have hv : s.lver o k n = v := Classical.not_not.mp hv
        have hb : ∀ f ∈ below, f ∈ s.stack := fun f hf => by rw [hst]; exact List.mem_cons_of_mem _ hf
        split at hs
        · cases hs
          refine ⟨Older.rfl' _, fun hk => keep (Older.rfl' _) hk fun f hf => ?_⟩
          rcases List.mem_cons.mp hf with rfl | hf
          · exact .inr (.inl rfl)
          · rcases List.mem_cons.mp hf with rfl | hf
            · exact .inr (.inr (by show v ≤ s.lver o k n; omega))
            · exact .inl (hb f hf)
        · cases k with
          | once =>
            cases hs
            refine ⟨⟨Nat.le_refl _, fun o' k' n' => touch_le s.lver o .once n o' k' n'⟩, fun hk => keep ⟨Nat.le_refl _, fun o' k' n' => touch_le s.lver o .once n o' k' n'⟩ hk fun f hf => ?_⟩
            rcases List.mem_cons.mp hf with rfl | hf
            · exact .inr (.inr (Nat.le_refl _))
            · exact .inl (hb f hf)
          | entry =>
            cases hs
            refine ⟨Older.rfl' _, fun hk => keep (Older.rfl' _) hk fun f hf => ?_⟩
            rcases List.mem_cons.mp hf with rfl | hf
            · exact .inr (.inr (Nat.le_refl _))
            · exact .inl (hb f hf)
          | each =>
            cases hs
            exact ⟨Older.rfl' _, fun hk => keep (Older.rfl' _) hk fun f hf => .inl (hb f hf)⟩
    · cases hs
  | ret =>
    simp only at hs
    split at hs
    · rename_i below hst
      cases hs
      exact ⟨Older.rfl' _, fun hk => keep (Older.rfl' _) hk fun f hf => .inl (by rw [hst]; exact List.mem_cons_of_mem _ hf)⟩
    · cases hs
  | throw =>
    simp only at hs
    split at hs
    · rename_i below hst
      cases hs
      obtain ⟨pre, e⟩ := unwind_suffix below
      exact ⟨Older.rfl' _, fun hk => keep (Older.rfl' _) hk fun f hf => .inl (by rw [hst, e]; exact List.mem_cons_of_mem _ (List.mem_append_right _ hf))⟩
    · cases hs

theorem Reach.known {lis : Nat → Bool} {c : Cfg} {name : Nat → String} {ok : St → Act → Prop} {s : St} (h : Reach lis c name ok s) : ∀ f ∈ s.stack, Known s f := by
  induction h with
  | init => nofun
  | step _ _ hs ih => exact (step_older hs).2 ih

theorem run_older {lis : Nat → Bool} {s s' : St} (as : List Act) (hr : FsmR.run lis s as = some s') : Older s s' := by
  induction as generalizing s with
  | nil => cases hr; exact Older.rfl' _
  | cons a as ih =>
    simp only [FsmR.run] at hr
    split at hr
    · cases hr
    · rename_i s1 e
      have h1 := (step_older e).1
      have h2 := ih hr
      exact ⟨Nat.le_trans h1.1 h2.1, fun o k n => Nat.le_trans (h1.2 o k n) (h2.2 o k n)⟩

theorem versions_changed {s : St} {o : Nat} {op : LOp} {k : Kind} {n : String} (h : changes (s.lst o).machine op k n) (hn : ∀ m ch, op ≠ .notified m ch) :
    versions s o op o k n = s.lver o k n + 1 := by
  cases op with
  | notified m ch => exact absurd rfl (hn m ch)
  | removeAll => exact if_pos ⟨rfl, h⟩
  | addAction m a => exact if_pos ⟨rfl, h.1, h.2⟩
  | addOneOff m a => exact if_pos ⟨rfl, h.1, h.2⟩
  | addPeriodic m a => exact if_pos ⟨rfl, h.1, h.2⟩
  | removeState m => exact if_pos ⟨rfl, h.1, h.2⟩

end Verif.FsmR
