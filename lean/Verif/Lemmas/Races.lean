import Verif.Spec.Races
import Verif.Lemmas.Locks
import Mathlib.Tactic.ByContra

/-! Which accesses are made under a lock, and why those are never in a race. -/

namespace Verif.Locks
open Verif

theorem accesses_append (x : Var) (a b : List I) : accesses x (a ++ b) = accesses x a ++ accesses x b := by
  induction a with
  | nil => rfl
  | cons i a ih =>
    cases i with
    | acc y w => by_cases h : y = x <;> simp [accesses, h, ih]
    | _ => simpa [accesses] using ih

theorem accesses_rel (x : Var) (l : List Mx) : accesses x (l.map .rel) = [] := by
  induction l with
  | nil => rfl
  | cons m l ih => simpa [accesses] using ih

theorem unguarded_rel (x : Var) (l : List Mx) : unguarded x (l.map .rel) = [] := by
  induction l with
  | nil => rfl
  | cons m l ih => simpa [unguarded] using ih

theorem unguarded_sub {x : Var} {w : Bool} {r : List I} (h : w ∈ unguarded x r) : w ∈ accesses x r := by
  induction r with
  | nil => cases h
  | cons i r ih =>
    cases i with
    | acc y v =>
      simp only [unguarded] at h
      simp only [accesses]
      split at h
      · rename_i hy
        rw [if_pos hy.1]
        rcases List.mem_cons.mp h with rfl | h
        · exact List.mem_cons_self ..
        · exact List.mem_cons_of_mem _ (ih h)
      · split
        · exact List.mem_cons_of_mem _ (ih h)
        · exact ih h
    | _ => exact ih h

theorem accesses_tail {x : Var} {i : I} {r : List I} {w : Bool} (h : w ∈ accesses x r) : w ∈ accesses x (i :: r) := by
  cases i with
  | acc y v => by_cases e : y = x <;> simp [accesses, e, h]
  | _ => exact h

theorem unguarded_tail {x : Var} {i : I} {r : List I} {w : Bool} (h : w ∈ unguarded x r) : w ∈ unguarded x (i :: r) := by
  cases i with
  | acc y v =>
    simp only [unguarded]
    split
    · exact List.mem_cons_of_mem _ h
    · exact h
  | _ => exact h

theorem accesses_body (x : Var) (w : Nat) : ∀ n, accesses x (body w n) = []
  | 0 => by simp [body, users, accesses]
  | n + 1 => by simpa [body, users, accesses] using accesses_body x w n

/-- What a step leaves of the code of a thread: everything was there before, except for the code of a function that is called. -/
theorem step_frames {s s' : St} {a : Act} (hs : step s a = some s') (x : Var) :
    (∀ t, t ≠ a.thread → s'.stack t = s.stack t) ∧
    ∀ fr' ∈ s'.stack a.thread, (∃ t f, a = .call t f ∧ fr' = code f) ∨ accesses x fr' = [] ∨
      ∃ fr ∈ s.stack a.thread, (∀ w ∈ accesses x fr', w ∈ accesses x fr) ∧ (∀ w ∈ unguarded x fr', w ∈ unguarded x fr) := by
  refine ⟨fun t ht => ?_, fun fr' hfr => ?_⟩
  · cases a <;> simp only [Act.thread] at ht <;> simp only [Locks.step] at hs <;> (repeat' split at hs) <;> cases hs <;> simp [ht]
  · have key : ∀ {t : Nat} {i : I} {r : List I} {st : List (List I)}, s.stack t = (i :: r) :: st → fr' ∈ r :: st →
        ∃ fr ∈ s.stack t, (∀ w ∈ accesses x fr', w ∈ accesses x fr) ∧ (∀ w ∈ unguarded x fr', w ∈ unguarded x fr) := by
      intro t i r st e h
      rw [e]
      rcases List.mem_cons.mp h with rfl | h
      · exact ⟨_, List.mem_cons_self .., fun w hw => accesses_tail hw, fun w hw => unguarded_tail hw⟩
      · exact ⟨fr', List.mem_cons_of_mem _ h, fun _ hw => hw, fun _ hw => hw⟩
    cases a with
    | spawn w n =>
      simp only [Locks.step] at hs
      split at hs <;> cases hs
      simp only [Act.thread, upd_same, List.mem_singleton] at hfr
      exact Or.inr (Or.inl (hfr ▸ accesses_body x w n))
    | call t f =>
      simp only [Locks.step] at hs
      split at hs <;> cases hs <;> rename_i e <;> simp only [Act.thread, upd_same] at hfr
      · exact Or.inl ⟨t, f, rfl, List.mem_singleton.mp hfr⟩
      · rcases List.mem_cons.mp hfr with rfl | hfr
        · exact Or.inl ⟨t, f, rfl, rfl⟩
        · exact Or.inr (Or.inr ⟨fr', by simp only [Act.thread]; rw [e]; exact hfr, fun _ hw => hw, fun _ hw => hw⟩)
    | ret t =>
      simp only [Locks.step] at hs
      split at hs <;> cases hs
      rename_i e
      exact Or.inr (Or.inr (key e (by simpa [Act.thread] using hfr)))
    | throw t =>
      simp only [Locks.step] at hs
      split at hs <;> cases hs
      rename_i e
      simp only [Act.thread, upd_same] at hfr
      rcases List.mem_cons.mp hfr with rfl | hfr
      · exact Or.inr (Or.inl (accesses_rel x _))
      · exact Or.inr (Or.inr ⟨fr', by simp only [Act.thread]; rw [e]; exact List.mem_cons_of_mem _ hfr, fun _ hw => hw, fun _ hw => hw⟩)
    | step t =>
      simp only [Locks.step] at hs
      split at hs
      · rename_i e
        cases hs
        simp only [Act.thread, upd_same] at hfr
        exact Or.inr (Or.inr ⟨fr', by simp only [Act.thread]; rw [e]; exact List.mem_cons_of_mem _ hfr, fun _ hw => hw, fun _ hw => hw⟩)
      · rename_i e
        split at hs <;> cases hs
        exact Or.inr (Or.inr (key e (by simpa [Act.thread] using hfr)))
      · rename_i e; cases hs; exact Or.inr (Or.inr (key e (by simpa [Act.thread] using hfr)))
      · rename_i e; cases hs; exact Or.inr (Or.inr (key e (by simpa [Act.thread] using hfr)))
      · rename_i e; cases hs; exact Or.inr (Or.inr (key e (by simpa [Act.thread] using hfr)))
      · cases hs

/-- No unprotected access conflicts with what another thread will do. -/
def Apart (x : Var) (s : St) : Prop :=
  ∀ t u, t ≠ u → ∀ fr ∈ s.stack t, ∀ fr' ∈ s.stack u, ∀ w ∈ unguarded x fr, ∀ w' ∈ accesses x fr', (w || w') = false

theorem Apart.step {x : Var} {s s' : St} (h : Apart x s) {a : Act} (hp : ∀ t f, a = .call t f → Careful x s t f) (hs : step s a = some s') : Apart x s' := by
  obtain ⟨ho, ha⟩ := step_frames hs x
  intro t u htu fr hfr fr' hfr' w hw w' hw'
  by_cases ht : t = a.thread
  · subst ht
    rw [ho u (Ne.symm htu)] at hfr'
    rcases ha fr hfr with ⟨t', f, rfl, rfl⟩ | he | ⟨fr0, h0, _, hu⟩
    · exact (hp t' f rfl u (Ne.symm htu) fr' hfr').1 w hw w' hw'
    · have := unguarded_sub hw
      rw [he] at this; cases this
    · exact h _ _ htu fr0 h0 fr' hfr' w (hu w hw) w' hw'
  · rw [ho t ht] at hfr
    by_cases hu : u = a.thread
    · subst hu
      rcases ha fr' hfr' with ⟨t', f, rfl, rfl⟩ | he | ⟨fr0, h0, hac, _⟩
      · have := (hp t' f rfl t ht fr hfr).2 w' hw' w hw
        rwa [Bool.or_comm] at this
      · rw [he] at hw'; cases hw'
      · exact h _ _ htu fr hfr fr0 h0 w hw w' (hac w' hw')
    · rw [ho u hu] at hfr'
      exact h _ _ htu fr hfr fr' hfr' w hw w' hw'

theorem Reach.apart {x : Var} {s : St} (h : Reach (Careful x) s) : Apart x s := by
  induction h with
  | init => intro t u _ fr hfr; simp [St.init] at hfr
  | step a _ hp hs ih => exact ih.step hp hs

/-- A program that only calls functions that access `x` under its mutex takes care of `x`. -/
theorem Reach.careful {x : Var} {P : St → Nat → Fn → Prop} (hP : ∀ s t f, P s t f → unguarded x (code f) = []) {s : St} (h : Reach P s) :
    Reach (Careful x) s ∧ ∀ t, ∀ fr ∈ s.stack t, unguarded x fr = [] := by
  induction h with
  | init => exact ⟨.init, by simp [St.init]⟩
  | @step s s' a _ hp hs ih =>
    refine ⟨.step a ih.1 (fun t f e u _ fr hfr => ⟨fun w hw => ?_, fun _ _ w' hw' => ?_⟩) hs, fun t fr hfr => ?_⟩
    · rw [hP _ _ _ (hp t f e)] at hw; cases hw
    · rw [ih.2 u fr hfr] at hw'; cases hw'
    · obtain ⟨ho, ha⟩ := step_frames hs x
      by_cases ht : t = a.thread
      · subst ht
        rcases ha fr hfr with ⟨t', f, e, rfl⟩ | he | ⟨fr0, h0, _, hu⟩
        · exact hP _ _ _ (hp t' f e)
        · refine List.eq_nil_iff_forall_not_mem.mpr fun w hw => ?_
          have := unguarded_sub hw
          rw [he] at this; cases this
        · refine List.eq_nil_iff_forall_not_mem.mpr fun w hw => ?_
          have := hu w hw
          rw [ih.2 _ fr0 h0] at this; cases this
      · rw [ho t ht] at hfr
        exact ih.2 t fr hfr

/-! ### which functions access what without a lock -/

theorem unguarded_users (x : Var) (k : User) (r : List I) : ∀ n, unguarded x (users k n ++ r) = unguarded x r
  | 0 => rfl
  | n + 1 => by simpa [users, unguarded] using unguarded_users x k r n

theorem pend_tries (h : Nat) (r : List I) (n : Nat) : pend (tries h n ++ r) = pend r := (Neutral.tries (rank := fun _ => 0) h n).1 r

theorem unguarded_tries {x : Var} {h : Nat} {r : List I} (hg : x = .requests h → .handler h ∈ pend r) : ∀ n, unguarded x (tries h n ++ r) = unguarded x r
  | 0 => rfl
  | n + 1 => by
    have ih := unguarded_tries hg n
    simp only [tries, List.cons_append, unguarded]
    rw [if_neg, ih]
    rintro ⟨e, hm⟩
    subst e
    refine hm (.handler h) rfl ?_
    simp only [pend]
    rw [pend_tries]; exact hg rfl

theorem unguarded_emitCalls (x : Var) (e : Nat) (r : List I) : ∀ os, unguarded x (emitCalls e os ++ r) = unguarded x r
  | [] => rfl
  | o :: os => by
    have ih := unguarded_emitCalls x e r os
    cases o with
    | false => simpa [emitCalls, unguarded] using ih
    | true =>
      simp only [emitCalls, if_true, under, List.cons_append, List.nil_append, List.append_assoc, unguarded, pend]
      by_cases hx : Var.listeners e = x
      · subst hx; simpa [guardOf] using ih
      · simpa [hx] using ih

theorem unguarded_detachFrom (x : Var) (c : Option Nat) (r : List I) : unguarded x (detachFrom c ++ r) = unguarded x r := by
  cases c with
  | none => rfl
  | some c =>
    by_cases hx : Var.subscriptions c = x
    · subst hx; simp [detachFrom, under, unguarded, guardOf, pend]
    · simp [detachFrom, under, unguarded, hx]

theorem unguarded_attachTo (x : Var) (c : Option Nat) (r : List I) : unguarded x (attachTo c ++ r) = unguarded x r := by
  cases c with
  | none => rfl
  | some c =>
    by_cases hx : Var.subscriptions c = x
    · subst hx; simp [attachTo, under, unguarded, guardOf, pend]
    · simp [attachTo, under, unguarded, hx]

theorem pend_attachTo (c : Option Nat) (r : List I) : pend (attachTo c ++ r) = pend r := (Neutral.attachTo (rank := fun _ => 0) c).1 r
theorem pend_detachFrom (c : Option Nat) (r : List I) : pend (detachFrom c ++ r) = pend r := (Neutral.detachFrom (rank := fun _ => 0) c).1 r

theorem unguarded_detaches {x : Var} {e : Nat} (hx : x ≠ .listeners e) (c : Option Nat) (r : List I) : ∀ n, unguarded x (detaches e c n ++ r) = unguarded x r
  | 0 => rfl
  | n + 1 => by
    simp only [detaches, List.cons_append, List.append_assoc, unguarded]
    rw [if_neg (fun h => hx h.1.symm), unguarded_detachFrom]
    exact unguarded_detaches hx c r n

theorem mem_unguarded_detaches {x : Var} {e : Nat} {c : Option Nat} {r : List I} {w : Bool} (h : w ∈ unguarded x r) : ∀ n, w ∈ unguarded x (detaches e c n ++ r)
  | 0 => h
  | n + 1 => by
    simp only [detaches, List.cons_append, List.append_assoc]
    refine unguarded_tail ?_
    rw [unguarded_detachFrom]
    exact mem_unguarded_detaches h n

theorem mem_pend_waits {m : Mx} {xs : List Var} {r : List I} (h : m ∈ pend r) (n : Nat) : m ∈ pend (waits m (xs.map rd) n ++ r) := by
  have hx : ∀ (l : List Var) (r' : List I), pend (l.map rd ++ r') = pend r' := by
    intro l r'
    induction l with
    | nil => rfl
    | cons a l ih => simpa [pend] using ih
  cases n with
  | zero => exact h
  | succ n =>
    simp only [waits, List.append_assoc]
    rw [hx]
    simp [pend]

theorem unguarded_waits {x : Var} {m : Mx} {xs : List Var} {r : List I} (hm : m ∈ pend r) (hg : x ∈ xs → guardOf x = some m) :
    ∀ n, unguarded x (waits m (xs.map rd) n ++ r) = unguarded x r
  | 0 => rfl
  | n + 1 => by
    have ih := unguarded_waits hm hg n
    have hx : ∀ (l : List Var) (r' : List I), (∀ y ∈ l, y ∈ xs) → m ∈ pend r' → unguarded x (l.map rd ++ r') = unguarded x r' := by
      intro l r' hl hp
      induction l with
      | nil => rfl
      | cons a l ihl =>
        have hpe : pend (l.map rd ++ r') = pend r' := by
          clear ihl hl
          induction l with
          | nil => rfl
          | cons b l ih => simpa [pend] using ih
        simp only [List.map_cons, List.cons_append, unguarded]
        rw [if_neg, ihl (fun y hy => hl y (List.mem_cons_of_mem _ hy))]
        rintro ⟨e, h⟩
        subst e
        exact h m (hg (hl _ (List.mem_cons_self ..))) (hpe ▸ hp)
    simp only [waits, List.append_assoc]
    rw [hx xs _ (fun _ h => h) (by simp [pend])]
    simpa [unguarded] using ih

theorem unguarded_under_onReply {x : Var} {h n : Nat} {f : Bool} : unguarded x (under (.handler h) (onReply h n f)) = [] := by
  simp only [under, unguarded, onReply, List.append_assoc]
  rw [unguarded_tries]
  · by_cases hx : Var.requests h = x
    · subst hx; cases f <;> simp [unguarded, guardOf, pend]
    · cases f <;> simp [unguarded, hx]
  · intro _; cases f <;> simp [pend]

theorem unguarded_onReply {x : Var} {h n : Nat} {f : Bool} : unguarded x (onReply h n f) ≠ [] ↔ x = .requests h := by
  constructor
  · intro hne
    by_contra hx
    apply hne
    simp only [onReply, List.append_assoc]
    rw [unguarded_tries (fun e => absurd e hx)]
    cases f <;> simp [unguarded, Ne.symm hx]
  · rintro rfl he
    have : ∀ n, false ∈ unguarded (.requests h) (tries h n ++ ([rd (.requests h)] ++ if f then [.user .callback, .user .callback, wr (.requests h), .user .value] else [])) := by
      intro n
      induction n with
      | zero => cases f <;> simp [tries, unguarded, pend]
      | succ n ih => simp only [tries, List.cons_append]; exact unguarded_tail (unguarded_tail ih)
    have h1 := this n
    simp only [onReply, List.append_assoc] at he
    rw [he] at h1; cases h1

local macro "fin" : tactic =>
  `(tactic| (rename_i a b; by_cases h : a = b <;> (try have h' := Ne.symm h) <;> simp_all))

/-- The table of unprotected functions is exact. -/
theorem unguarded_code (x : Var) (f : Fn) : unguarded x (code f) ≠ [] ↔ unprotected x f = true := by
  cases f with
  | on e c =>
    simp only [code, under, List.cons_append, List.nil_append, List.append_assoc, unguarded, unguarded_attachTo, pend_attachTo, pend]
    cases x <;> simp [unprotected, guardOf] <;> fin
  | removeListener e c =>
    simp only [code, under, List.cons_append, List.nil_append, List.append_assoc, unguarded, unguarded_detachFrom, pend_detachFrom, pend]
    cases x <;> simp [unprotected, guardOf] <;> fin
  | emit e os =>
    simp only [code, under, List.cons_append, List.nil_append, unguarded, unguarded_emitCalls, pend]
    rw [(Neutral.emitCalls (rank := fun _ => 0) e os).1]
    cases x <;> simp [unprotected, guardOf, pend]
    rename_i e'
    by_cases h : e = e' <;> simp [h]
  | removeAll e c n =>
    by_cases hx : x = .listeners e
    · subst hx
      simp only [unprotected, beq_self_eq_true, iff_true]
      intro h
      have : true ∈ unguarded (.listeners e) (code (.removeAll e c n)) := mem_unguarded_detaches (by simp [unguarded, pend]) n
      rw [h] at this; cases this
    · simp only [code]
      rw [unguarded_detaches hx]
      have hx' : Var.listeners e ≠ x := Ne.symm hx
      cases x <;> simp_all [unprotected, unguarded]
  | emitUnsafe n =>
    have := unguarded_users x .listener [] n
    rw [List.append_nil] at this
    simp only [code, this]
    cases x <;> simp [unprotected, unguarded]
  | qPush q n =>
    have := unguarded_waits (x := x) (m := .queue q) (xs := [.items q, .bound q]) (r := [rd (.items q), rd (.bound q), .user .value, wr (.items q), .rel (.queue q)])
      (by simp [pend]) (by simp; rintro (rfl | rfl) <;> rfl) n
    simp only [code, under, List.append_assoc, List.cons_append, List.nil_append, unguarded]
    simp only [List.map_cons, List.map_nil] at this
    rw [this]
    clear this
    cases x <;> simp [unprotected, unguarded, guardOf, pend] <;> (rename_i a; by_cases h : q = a <;> (try have h' := Ne.symm h) <;> simp_all)
  | qPop q n =>
    have := unguarded_waits (x := x) (m := .queue q) (xs := [.items q]) (r := [rd (.items q), .user .value, wr (.items q), .rel (.queue q)])
      (by simp [pend]) (by simp; rintro rfl; rfl) n
    simp only [code, under, List.append_assoc, List.cons_append, List.nil_append, unguarded]
    simp only [List.map_cons, List.map_nil] at this
    rw [this]
    clear this
    cases x <;> simp [unprotected, unguarded, guardOf, pend] <;> (rename_i a; by_cases h : q = a <;> (try have h' := Ne.symm h) <;> simp_all)
  | waitFor w n =>
    have := unguarded_waits (x := x) (m := .strategy w) (xs := []) (r := [.rel (.strategy w)]) (by simp [pend]) (by simp) n
    simp only [code, under, unguarded]
    simp only [List.map_nil] at this
    rw [this]
    cases x <;> simp [unprotected, unguarded]
  | qTryPush q n =>
    simp only [code, under, List.append_assoc, List.cons_append, List.nil_append, unguarded, unguarded_users, pend_users, pend]
    cases x <;> simp [unprotected, guardOf] <;> fin
  | qCopy q n =>
    simp only [code, under, List.append_assoc, List.cons_append, List.nil_append, unguarded, unguarded_users, pend_users, pend]
    cases x <;> simp [unprotected, guardOf] <;> fin
  | qMoveAssign a b =>
    cases x <;> simp [code, under, unprotected, unguarded, guardOf, pend]
    rename_i q
    by_cases h1 : b = q <;> by_cases h2 : a = q <;> simp [h1, h2]
    · exact fun e => h2 (e ▸ rfl)
  | qSwap a b =>
    by_cases hab : a = b
    · cases x <;> simp [code, hab, unprotected, unguarded]
    · cases x <;> simp [code, hab, under, unprotected, unguarded, guardOf, pend]
      rename_i q
      by_cases h1 : b = q <;> by_cases h2 : a = q <;> simp [h1, h2]
  | qAssign a b =>
    by_cases hab : a = b
    · cases x <;> simp [code, hab, unprotected, unguarded]
    · cases x <;> simp [code, hab, under, unprotected, unguarded, guardOf, pend]
      rename_i q
      by_cases h1 : b = q <;> by_cases h2 : a = q <;> simp [h1, h2]
  | reply h n f => simp only [code, unguarded_under_onReply]; cases x <;> simp [unprotected]
  | replyEarly h n f =>
    simp only [code, unguarded_onReply]
    cases x <;> simp [unprotected]
    exact ⟨fun e => e.symm, fun e => e.symm⟩
  | execute p f => cases f <;> cases x <;> simp [code, under, unprotected, unguarded, guardOf, pend] <;> fin
  | zenvLoad n ok =>
    cases ok <;> cases x <;> simp [code, unprotected, unguarded, guardOf] <;> rename_i m <;> by_cases h : n = m <;> simp [h]
  | zenvPoll n a =>
    cases a <;> cases x <;> simp [code, unprotected, unguarded, guardOf] <;> exact ⟨fun e => e.symm ▸ rfl, fun e => e.symm ▸ rfl⟩
  | _ =>
    cases x <;> simp [code, under, unprotected, unguarded, guardOf, pend] <;> fin

end Verif.Locks
