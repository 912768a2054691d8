import Verif.Lemmas.FsmReentry
import Verif.Props.StateMachine

/-! Every event of a history has a cause before it and its consequence after it. -/

namespace Verif.FsmR
open Verif Verif.Fsm

/-- The last event of a history is of a kind. -/
def EndsWith (h : List Ev) (p : Ev → Prop) : Prop := ∃ h0 e, h = h0 ++ [e] ∧ p e

/-- The cause of an event, in the history before it. -/
def Just (lis : Nat → Bool) (c : Cfg) (name : Nat → String) (h : List Ev) : Ev → Prop
  | .begin _ n ch obs => ∃ h0 op, h = h0 ++ [.op (.m op)] ∧ notice (after c (machineOps h0)) op = some (n, ch) ∧ obs = observersOf (machineOps h)
  | .phase _ o n k as => as = due name o n k h ∧ match k with
    | .once => EndsWith h (Listens lis o n true)
    | .entry => EndsWith h fun e => ∃ i, e = .over i o n .once
    | .each => EndsWith h fun e => (∃ i, e = .over i o n .entry) ∨ Listens lis o n false e
  | _ => True

/-- The event after an event. -/
def Next (lis : Nat → Bool) (c : Cfg) (h : List Ev) (e : Ev) (h2 : List Ev) : Prop :=
  (∀ op n ch, e = .op (.m op) → notice (after c (machineOps h)) op = some (n, ch) → ∃ id obs h3, h2 = .begin id n ch obs :: h3) ∧
  (∀ o n ch, Listens lis o n ch e → ∃ id as h3, h2 = .phase id o n (if ch then .once else .each) as :: h3) ∧
  (∀ i o n, e = .over i o n .once → ∃ id as h3, h2 = .phase id o n .entry as :: h3) ∧
  (∀ i o n, e = .over i o n .entry → ∃ id as h3, h2 = .phase id o n .each as :: h3)

theorem Next.mono {lis : Nat → Bool} {c : Cfg} {h : List Ev} {e : Ev} {h2 : List Ev} (hn : Next lis c h e h2) (t : List Ev) : Next lis c h e (h2 ++ t) := by
  obtain ⟨h1, h3, h4, h5⟩ := hn
  refine ⟨fun op n ch e1 e2 => ?_, fun o n ch hl => ?_, fun i o n e1 => ?_, fun i o n e1 => ?_⟩
  · obtain ⟨id, obs, r, rfl⟩ := h1 op n ch e1 e2; exact ⟨id, obs, r ++ t, rfl⟩
  · obtain ⟨id, as, r, rfl⟩ := h3 o n ch hl; exact ⟨id, as, r ++ t, rfl⟩
  · obtain ⟨id, as, r, rfl⟩ := h4 i o n e1; exact ⟨id, as, r ++ t, rfl⟩
  · obtain ⟨id, as, r, rfl⟩ := h5 i o n e1; exact ⟨id, as, r ++ t, rfl⟩

/-- An event that needs none after it. -/
theorem Next.free {lis : Nat → Bool} {c : Cfg} {h : List Ev} {e : Ev} (hn : ∀ op, e = .op (.m op) → notice (after c (machineOps h)) op = none)
    (hl : ∀ o n ch, ¬ Listens lis o n ch e) (ho : ∀ i o n k, e = .over i o n k → k = .each) : Next lis c h e [] :=
  ⟨fun op n ch e1 e2 => (by rw [hn op e1] at e2; cases e2), fun o n ch h => absurd h (hl o n ch), fun i o n e1 => (by cases ho i o n _ e1), fun i o n e1 => (by cases ho i o n _ e1)⟩

structure Sound (lis : Nat → Bool) (c : Cfg) (name : Nat → String) (h : List Ev) : Prop where
  just : ∀ h1 e h2, h = h1 ++ e :: h2 → Just lis c name h1 e
  next : ∀ h1 e h2, h = h1 ++ e :: h2 → Next lis c h1 e h2

theorem split_snoc {h h1 h2 : List Ev} {e x : Ev} (hs : h ++ [e] = h1 ++ x :: h2) : (h2 = [] ∧ h1 = h ∧ x = e) ∨ ∃ h2', h2 = h2' ++ [e] ∧ h = h1 ++ x :: h2' := by
  rcases List.eq_nil_or_concat h2 with rfl | ⟨h2', y, rfl⟩
  · obtain ⟨e1, e2⟩ := List.append_inj' hs rfl
    cases e2; exact .inl ⟨rfl, e1.symm, rfl⟩
  · rw [List.concat_eq_append, ← List.cons_append, ← List.append_assoc] at hs
    obtain ⟨e1, e2⟩ := List.append_inj' hs rfl
    cases e2
    exact .inr ⟨h2', by rw [List.concat_eq_append], e1⟩

theorem Sound.nil {lis : Nat → Bool} {c : Cfg} {name : Nat → String} : Sound lis c name [] := ⟨fun h1 e h2 h => by simp at h, fun h1 e h2 h => by simp at h⟩

theorem Sound.snoc {lis : Nat → Bool} {c : Cfg} {name : Nat → String} {h : List Ev} (hs : Sound lis c name h) {e : Ev} (hj : Just lis c name h e) (hn : Next lis c h e []) :
    Sound lis c name (h ++ [e]) := by
  constructor
  · intro h1 x h2 hx
    rcases split_snoc hx with ⟨rfl, rfl, rfl⟩ | ⟨h2', rfl, hh⟩
    · exact hj
    · exact hs.just _ _ _ hh
  · intro h1 x h2 hx
    rcases split_snoc hx with ⟨rfl, rfl, rfl⟩ | ⟨h2', rfl, hh⟩
    · exact hn
    · exact (hs.next _ _ _ hh).mono _

theorem Sound.snoc2 {lis : Nat → Bool} {c : Cfg} {name : Nat → String} {h : List Ev} (hs : Sound lis c name h) {e e' : Ev} (hj : Just lis c name h e)
    (hj' : Just lis c name (h ++ [e]) e') (hn : Next lis c h e [e']) (hn' : Next lis c (h ++ [e]) e' []) : Sound lis c name (h ++ [e] ++ [e']) := by
  constructor
  · intro h1 x h2 hx
    rcases split_snoc hx with ⟨rfl, rfl, rfl⟩ | ⟨h2', rfl, hh⟩
    · exact hj'
    · rcases split_snoc hh with ⟨rfl, rfl, rfl⟩ | ⟨h2'', rfl, hk⟩
      · exact hj
      · exact hs.just _ _ _ hk
  · intro h1 x h2 hx
    rcases split_snoc hx with ⟨rfl, rfl, rfl⟩ | ⟨h2', rfl, hh⟩
    · exact hn'
    · rcases split_snoc hh with ⟨rfl, rfl, rfl⟩ | ⟨h2'', rfl, hk⟩
      · exact hn
      · exact ((hs.next _ _ _ hk).mono _).mono _

theorem machineOps_append (a b : List Ev) : machineOps (a ++ b) = machineOps a ++ machineOps b := List.filterMap_append ..

theorem after_snoc (c : Cfg) (ops : List Op) (op : Op) : after c (ops ++ [op]) = (Fsm.step (after c ops) op).1 := by simp [after, runOps_append, runOps]

theorem observersOf_eq (c : Cfg) (ops : List Op) : observersOf ops = (after c ops).observers := (C34_observers c ops).symm

/-- One event more. -/
def dueStep (name : Nat → String) (o : Nat) (n : String) (k : Kind) (l : List Nat) (e : Ev) : List Nat :=
  match e, k with
    | .op (.l o' (.addOneOff s a)), .once => if o' = o ∧ completeName (name o) s = n then l ++ [a] else l
    | .over _ o' n' .once, .once => if o' = o ∧ n' = n then [] else l
    | .op (.l o' (.addAction s a)), .entry => if o' = o ∧ completeName (name o) s = n then l ++ [a] else l
    | .op (.l o' (.addPeriodic s a)), .each => if o' = o ∧ completeName (name o) s = n then l ++ [a] else l
    | .op (.l o' (.removeState s)), .each => if o' = o ∧ completeName (name o) s = n then [] else l
    | .op (.l o' .removeAll), .each => if o' = o then [] else l
    | _, _ => l

theorem due_snoc (name : Nat → String) (o : Nat) (n : String) (k : Kind) (h : List Ev) (e : Ev) : due name o n k (h ++ [e]) = dueStep name o n k (due name o n k h) e := by
  unfold due
  rw [List.foldl_append]
  rfl

/-- The state agrees with its history. -/
structure HInv (lis : Nat → Bool) (c : Cfg) (name : Nat → String) (s : St) : Prop where
  m : s.m = after c (machineOps s.hist)
  nm : ∀ o, (s.lst o).machine = name o
  l : ∀ o k n, vec (s.lst o) k n = due name o n k s.hist
  sound : Sound lis c name s.hist

theorem HInv.startPhase {lis : Nat → Bool} {c : Cfg} {name : Nat → String} {s : St} (o : Nat) (n : String) (k : Kind) (below : List Frame)
    {h0 : List Ev} {e : Ev} (hh : s.hist = h0 ++ [e])
    (hm : s.m = after c (machineOps s.hist)) (hnm : ∀ o, (s.lst o).machine = name o) (hl : ∀ o k n, vec (s.lst o) k n = due name o n k s.hist) (hs : Sound lis c name h0)
    (hj : Just lis c name h0 e)
    (hj2 : match k with
    | .once => Listens lis o n true e
    | .entry => ∃ i, e = .over i o n .once
    | .each => (∃ i, e = .over i o n .entry) ∨ Listens lis o n false e) : HInv lis c name (startPhase s o n k below) := by
  refine ⟨?_, hnm, ?_, ?_⟩
  · show s.m = _
    rw [hm]; simp [FsmR.startPhase, machineOps]
  · intro o' k' n'
    show vec (s.lst o') k' n' = _
    rw [hl]
    simp only [FsmR.startPhase, due_snoc, dueStep]
  · show Sound lis c name (s.hist ++ [_])
    have e0 : vec (s.lst o) k n = due name o n k (h0 ++ [e]) := by rw [hl, hh]
    rw [hh]
    refine hs.snoc2 hj ⟨e0, ?_⟩ ?_ (Next.free nofun (fun _ _ _ h => h) nofun)
    · cases k with
      | once => exact ⟨h0, e, rfl, hj2⟩
      | entry => exact ⟨h0, e, rfl, hj2⟩
      | each => exact ⟨h0, e, rfl, hj2⟩
    · refine ⟨fun op n' ch e1 _ => ?_, fun o' n' ch hl' => ?_, fun i o' n' e1 => ?_, fun i o' n' e1 => ?_⟩
      · subst e1
        cases k with
        | once => exact hj2.elim
        | entry => obtain ⟨i, e2⟩ := hj2; cases e2
        | each => obtain ⟨i, e2⟩ | h := hj2
                  · cases e2
                  · exact h.elim
      · have key : ∀ {ch'}, Listens lis o n ch' e → o' = o ∧ n' = n ∧ ch = ch' := by
          intro ch' h
          cases e with
          | call i2 o2 n2 ch2 => exact ⟨hl'.1.symm.trans h.1, hl'.2.2.1.symm.trans h.2.2.1, hl'.2.2.2.symm.trans h.2.2.2⟩
          | op x =>
            cases x with
            | m => exact h.elim
            | l o2 op2 =>
              cases op2 with
              | notified n2 ch2 => exact ⟨hl'.1.symm.trans h.1, hl'.2.1.symm.trans h.2.1, hl'.2.2.symm.trans h.2.2⟩
              | _ => exact h.elim
          | _ => exact h.elim
        cases k with
        | once => obtain ⟨rfl, rfl, rfl⟩ := key hj2; exact ⟨_, _, _, rfl⟩
        | entry => obtain ⟨i, rfl⟩ := hj2; exact hl'.elim
        | each =>
          obtain ⟨i, rfl⟩ | h := hj2
          · exact hl'.elim
          · obtain ⟨rfl, rfl, rfl⟩ := key h; exact ⟨_, _, _, rfl⟩
      · subst e1
        cases k with
        | once => exact hj2.elim
        | entry => obtain ⟨i, e2⟩ := hj2; cases e2; exact ⟨_, _, _, rfl⟩
        | each => obtain ⟨i, e2⟩ | h := hj2
                  · cases e2
                  · exact h.elim
      · subst e1
        cases k with
        | once => exact hj2.elim
        | entry => obtain ⟨i, e2⟩ := hj2; cases e2
        | each => obtain ⟨i, e2⟩ | h := hj2
                  · cases e2; exact ⟨_, _, _, rfl⟩
                  · exact h.elim

/-- Only the history and the stack change, by an event of the library that is not a registration. -/
theorem HInv.quiet {lis : Nat → Bool} {c : Cfg} {name : Nat → String} {s s' : St} (h : HInv lis c name s) {e : Ev} (hm : s'.m = s.m) (hl : s'.lst = s.lst)
    (hh : s'.hist = s.hist ++ [e]) (he : (match e with | .fin _ | .threw => true | .act .. => true | .over _ _ _ .each => true | .call _ o _ _ => !lis o | _ => false) = true) : HInv lis c name s' := by
  refine ⟨?_, fun o => by rw [hl]; exact h.nm o, fun o k n => ?_, ?_⟩
  · rw [hm, hh, h.m, machineOps_append]
    have : machineOps [e] = [] := by cases e <;> first | rfl | (simp at he)
    rw [this, List.append_nil]
  · rw [hl, hh, h.l, due_snoc]
    cases e with
    | over i o' n' k' => cases k' <;> first | (simp at he; done) | (cases k <;> rfl)
    | op x => simp at he
    | _ => cases k <;> rfl
  · rw [hh]
    refine h.sound.snoc ?_ (Next.free (fun op e1 => ?_) (fun o n ch hx => ?_) (fun i o n k e1 => ?_))
    · cases e <;> first | exact trivial | (simp at he)
    · subst e1; simp at he
    · cases e with
      | call i o' n' ch' =>
        obtain ⟨rfl, hlis, -⟩ := hx
        simp [hlis] at he
      | op x => simp at he
      | _ => exact hx.elim
    · subst e1; cases k <;> first | rfl | (simp at he)

theorem HInv.step {lis : Nat → Bool} {c : Cfg} {name : Nat → String} {s s' : St} {a : Act} (h : HInv lis c name s) (hs : FsmR.step lis s a = some s') : HInv lis c name s' := by
  unfold FsmR.step at hs
  split at hs
  · cases hs
  cases a with
  | op x =>
    simp only at hs
    split at hs
    · cases hs
      cases x with
      | m op =>
        have h1 : (Fsm.step s.m op).1 = after c (machineOps (s.hist ++ [.op (.m op)])) := by
          rw [machineOps_append, show machineOps [Ev.op (.m op)] = [op] from rfl, after_snoc, h.m]
        have hd : ∀ o k n, due name o n k (s.hist ++ [.op (.m op)]) = due name o n k s.hist := fun o k n => by
          rw [due_snoc]; cases k <;> rfl
        simp only [call]
        cases e : notice s.m op with
        | none =>
          refine ⟨h1, h.nm, fun o k n => (h.l o k n).trans (hd o k n).symm, h.sound.snoc trivial (Next.free (fun op' e1 => ?_) (fun o n ch hx => hx) nofun)⟩
          cases e1; rw [← h.m]; exact e
        | some nc =>
          obtain ⟨n, ch⟩ := nc
          refine ⟨?_, h.nm, fun o k n' => ?_, ?_⟩
          · show (Fsm.step s.m op).1 = _
            rw [h1, machineOps_append _ [Ev.begin _ _ _ _]]
            simp [machineOps]
          · show vec (s.lst o) k n' = _
            dsimp only
            rw [due_snoc, hd, ← h.l]
            cases k <;> rfl
          · refine h.sound.snoc2 trivial ⟨s.hist, op, rfl, by rw [← h.m]; exact e, ?_⟩ ?_ (Next.free nofun (fun o n ch hx => hx) nofun)
            · rw [observersOf_eq c, ← h1]
            · refine ⟨fun op' n' ch' e1 e2 => ?_, fun o n ch hx => hx.elim, nofun, nofun⟩
              cases e1
              rw [← h.m, e] at e2
              cases e2
              exact ⟨_, _, _, rfl⟩
      | l o op =>
        have hm : ∀ op', s.m = after c (machineOps (s.hist ++ [.op (.l o op')])) := fun op' => by
          rw [machineOps_append, h.m]; simp [machineOps]
        cases op with
        | notified n ch =>
          simp only [call, listen]
          refine HInv.startPhase o n _ _ (h0 := s.hist) rfl (hm _) h.nm (fun o' k n' => ?_) h.sound trivial ?_
          · show vec (s.lst o') k n' = due name o' n' k (s.hist ++ [_])
            rw [due_snoc, ← h.l]
            cases k <;> rfl
          · cases ch with
            | true => exact ⟨rfl, rfl, rfl⟩
            | false => exact .inr ⟨rfl, rfl, rfl⟩
        | _ =>
          simp only [call]
          refine ⟨hm _, fun o' => ?_, fun o' k n' => ?_, h.sound.snoc trivial (Next.free nofun (fun o n ch hx => hx) nofun)⟩
          · by_cases eo : o' = o
            · subst eo; simp only [upd_same, lstep]; exact h.nm o'
            · dsimp only; rw [upd_other _ _ eo]; exact h.nm o'
          · have hl := h.l o' k n'
            dsimp only
            rw [due_snoc, ← hl]
            by_cases eo : o' = o
            · subst eo
              simp only [upd_same, lstep, h.nm]
              cases k <;> simp only [vec, dueStep, upd_apply, true_and, if_true, eq_comm] <;> (try split) <;> simp_all
            · rw [upd_other _ _ eo]
              have eo' : ¬ o = o' := fun e => eo e.symm
              cases k <;> simp [dueStep, eo']
    · cases hs
  | tick =>
    simp only [tick] at hs
    split at hs
    · rename_i id n ch v rest below hst
      split at hs
      · cases hs; exact ⟨h.m, h.nm, h.l, h.sound⟩
      · split at hs
        · cases hs; exact h.quiet rfl rfl (by rfl) rfl
        · rename_i o r
          split at hs
          · rename_i hlis
            cases hs
            refine HInv.startPhase o n _ _ (h0 := s.hist) (e := .call id o n ch) rfl ?_ h.nm (fun o' k n' => ?_) h.sound trivial ?_
            · show s.m = after c (machineOps (s.hist ++ [.call id o n ch]))
              rw [machineOps_append, h.m]; simp [machineOps]
            · show vec (s.lst o') k n' = due name o' n' k (s.hist ++ [.call id o n ch])
              rw [due_snoc, ← h.l]
              cases k <;> rfl
            · cases ch with
              | true => exact ⟨rfl, hlis, rfl, rfl⟩
              | false => exact .inr ⟨rfl, hlis, rfl, rfl⟩
          · rename_i hlis
            cases hs
            exact h.quiet rfl rfl (by rfl) (by simpa using hlis)
    · rename_i id o n k v rest below hst
      split at hs
      · cases hs; exact ⟨h.m, h.nm, h.l, h.sound⟩
      · split at hs
        · cases hs; exact h.quiet rfl rfl (by rfl) rfl
        · have hm : ∀ k', s.m = after c (machineOps (s.hist ++ [.over id o n k'])) := fun k' => by
            rw [machineOps_append, h.m]; simp [machineOps]
          cases k with
          | once =>
            cases hs
            refine HInv.startPhase o n _ _ (h0 := s.hist) (e := .over id o n .once) rfl (hm _) (fun o' => ?_) (fun o' k n' => ?_) h.sound trivial ⟨id, rfl⟩
            · by_cases eo : o' = o
              · subst eo; simp only [upd_same]; exact h.nm o'
              · dsimp only; rw [upd_other _ _ eo]; exact h.nm o'
            · have hl := h.l o' k n'
              dsimp only
              rw [due_snoc, ← hl]
              by_cases eo : o' = o
              · subst eo
                simp only [upd_same]
                cases k <;> simp only [vec, dueStep, upd_apply, true_and, eq_comm]
              · rw [upd_other _ _ eo]
                have eo' : ¬ o = o' := fun e => eo e.symm
                cases k <;> simp [dueStep, eo']
          | entry =>
            cases hs
            refine HInv.startPhase o n _ _ (h0 := s.hist) (e := .over id o n .entry) rfl (hm _) h.nm (fun o' k n' => ?_) h.sound trivial (.inl ⟨id, rfl⟩)
            show vec (s.lst o') k n' = due name o' n' k (s.hist ++ [_])
            rw [due_snoc, ← h.l]
            cases k <;> rfl
          | each => cases hs; exact h.quiet rfl rfl (by rfl) rfl
    · cases hs
  | ret =>
    simp only at hs
    split at hs
    · cases hs; exact ⟨h.m, h.nm, h.l, h.sound⟩
    · cases hs
  | throw =>
    simp only at hs
    split at hs
    · cases hs; exact h.quiet rfl rfl (by rfl) rfl
    · cases hs

theorem Reach.hinv {lis : Nat → Bool} {c : Cfg} {name : Nat → String} {ok : St → Act → Prop} {s : St} (h : Reach lis c name ok s) : HInv lis c name s := by
  induction h with
  | init => exact ⟨rfl, fun _ => rfl, fun o k n => by cases k <;> rfl, .nil⟩
  | step _ _ hs ih => exact ih.step hs

end Verif.FsmR
