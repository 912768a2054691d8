import Verif.Spec.Locks

/-! The locks of the library: every thread holds exactly the mutexes its calls still have to unlock, and takes them in order. -/

namespace Verif.Locks
open Verif

/-- Every suffix of the code that begins with a lock also unlocks, and the mutexes held then come before it. -/
def WF (rank : Mx → Nat) : List I → Prop
  | [] => True
  | .acq m :: r => m ∈ pend r ∧ (∀ h ∈ pend (.acq m :: r), rank h < rank m) ∧ WF rank r
  | _ :: r => WF rank r

theorem WF.tail {rank : Mx → Nat} {i : I} {r : List I} (h : WF rank (i :: r)) : WF rank r := by
  cases i <;> simp only [WF] at h <;> first | exact h.2.2 | exact h

theorem pend_map_rel (l : List Mx) : pend (l.map .rel) = l := by
  induction l with
  | nil => rfl
  | cons m l ih => simp [pend, ih]

@[simp] theorem pend_unwind (r : List I) : pend (unwind r) = pend r := pend_map_rel _

theorem WF_map_rel {rank : Mx → Nat} (l : List Mx) : WF rank (l.map .rel) := by
  induction l with
  | nil => trivial
  | cons m l ih => simpa [WF] using ih

theorem locks_map_rel (l : List Mx) : locks (l.map .rel) = [] := by
  induction l with
  | nil => rfl
  | cons m l ih => simpa [locks] using ih

/-! ### the code of the functions -/

/-- `c` leaves the mutexes held as they are; it may stand where only earlier mutexes are held. -/
def Neutral (rank : Mx → Nat) (c : List I) : Prop :=
  (∀ r, pend (c ++ r) = pend r) ∧
  (∀ r, WF rank r → (∀ h ∈ pend r, ∀ m ∈ locks c, rank h < rank m) → WF rank (c ++ r))

theorem Neutral.nil {rank : Mx → Nat} : Neutral rank [] := ⟨fun _ => rfl, fun _ h _ => h⟩

theorem Neutral.user {rank : Mx → Nat} {k : User} {c : List I} (h : Neutral rank c) : Neutral rank (.user k :: c) :=
  ⟨fun r => h.1 r, fun r hr hl => h.2 r hr hl⟩

theorem Neutral.acc {rank : Mx → Nat} {x : Var} {w : Bool} {c : List I} (h : Neutral rank c) : Neutral rank (.acc x w :: c) :=
  ⟨fun r => h.1 r, fun r hr hl => h.2 r hr hl⟩

theorem locks_append (a b : List I) : locks (a ++ b) = locks a ++ locks b := by
  induction a with
  | nil => rfl
  | cons i a ih => cases i <;> simp [locks, ih]

theorem Neutral.append {rank : Mx → Nat} {a b : List I} (ha : Neutral rank a) (hb : Neutral rank b) : Neutral rank (a ++ b) := by
  refine ⟨fun r => ?_, fun r hr hl => ?_⟩
  · rw [List.append_assoc, ha.1, hb.1]
  · rw [List.append_assoc]
    refine ha.2 _ (hb.2 r hr ?_) ?_
    · intro h hh m hm; exact hl h hh m (by rw [locks_append]; simp [hm])
    · intro h hh m hm; rw [hb.1] at hh; exact hl h hh m (by rw [locks_append]; simp [hm])

/-- A critical section around neutral code that locks only later mutexes. -/
theorem Neutral.section {rank : Mx → Nat} {m : Mx} {c : List I} (hc : Neutral rank c) (hm : ∀ x ∈ locks c, rank m < rank x) :
    Neutral rank (under m c) := by
  refine ⟨fun r => ?_, fun r hr hl => ?_⟩
  · simp only [under, List.cons_append, List.append_assoc, pend, hc.1]
    simp [pend]
  · simp only [under, List.cons_append, List.append_assoc, WF, List.nil_append]
    have hp : pend (c ++ .rel m :: r) = m :: pend r := by rw [hc.1]; rfl
    refine ⟨by rw [hp]; simp, ?_, hc.2 _ (by simpa [WF] using hr) ?_⟩
    · intro h hh
      simp only [pend] at hh
      rw [hp] at hh
      simp only [List.erase_cons_head] at hh
      exact hl h hh m (by simp [under, locks])
    · intro h hh x hx
      simp only [pend, List.mem_cons] at hh
      rcases hh with rfl | hh
      · exact hm x hx
      · exact hl h hh x (by simp [under, locks, locks_append, hx])

theorem Neutral.users {rank : Mx → Nat} {k : User} : ∀ n, Neutral rank (users k n)
  | 0 => .nil
  | n + 1 => .user (Neutral.users n)

theorem locks_users (k : User) : ∀ n, locks (users k n) = []
  | 0 => rfl
  | n + 1 => by simp [users, locks, locks_users k n]

theorem Neutral.attachTo {rank : Mx → Nat} (c : Option Nat) : Neutral rank (attachTo c) := by
  cases c with
  | none => exact .nil
  | some c => exact Neutral.section (.acc .nil) (by simp [locks])

theorem Neutral.detachFrom {rank : Mx → Nat} (c : Option Nat) : Neutral rank (detachFrom c) := by
  cases c with
  | none => exact .nil
  | some c => exact Neutral.section (.acc .nil) (by simp [locks])

theorem Neutral.detaches {rank : Mx → Nat} (e : Nat) (c : Option Nat) : ∀ n, Neutral rank (detaches e c n)
  | 0 => .nil
  | n + 1 => .acc ((Neutral.detachFrom c).append (Neutral.detaches e c n))

theorem Neutral.tries {rank : Mx → Nat} (h : Nat) : ∀ n, Neutral rank (tries h n)
  | 0 => .nil
  | n + 1 => .acc (.user (Neutral.tries h n))

theorem locks_tries (h : Nat) : ∀ n, locks (tries h n) = []
  | 0 => rfl
  | n + 1 => by simp [tries, locks, locks_tries h n]

theorem Neutral.onReply {rank : Mx → Nat} (h n : Nat) (f : Bool) : Neutral rank (onReply h n f) := by
  refine ((Neutral.tries h n).append (.acc .nil)).append ?_
  cases f
  · exact .nil
  · exact .user (.user (.acc (.user .nil)))

theorem locks_onReply (h n : Nat) (f : Bool) : locks (onReply h n f) = [] := by
  cases f <;> simp [onReply, locks_append, locks_tries, locks]

theorem Neutral.emitCalls {rank : Mx → Nat} (e : Nat) : ∀ os, Neutral rank (emitCalls e os)
  | [] => .nil
  | o :: os => by
    have h := Neutral.emitCalls (rank := rank) e os
    cases o with
    | false => exact .user h
    | true => exact .user ((Neutral.section (m := .emitter e) (.acc (.acc (.user .nil))) (by simp [locks])).append h)

/-- A blocking critical section: the mutex is given up and taken again. -/
theorem Neutral.waitsSection {rank : Mx → Nat} {m : Mx} {c check : List I} (hk : Neutral rank check) (hkl : locks check = []) (hc : Neutral rank c) (hm : locks c = []) :
    ∀ n, Neutral rank (under m (waits m check n ++ c))
  | 0 => by simpa [waits] using Neutral.section (m := m) hc (by simp [hm])
  | n + 1 => by
    have ih := Neutral.waitsSection (rank := rank) (m := m) hk hkl hc hm n
    have e : under m (waits m check (n + 1) ++ c) = under m check ++ (I.wait :: under m (waits m check n ++ c)) := by
      simp [waits, under]
    rw [e]
    refine Neutral.append (Neutral.section hk (by simp [hkl])) ⟨fun r => ih.1 r, fun r hr hl => ih.2 r hr hl⟩

/-- The order of the mutexes that the library itself needs. -/
def LibOrder (rank : Mx → Nat) : Prop := ∀ e c, rank (.emitter e) < rank (.subscriptions c)

/-- Every function leaves the locks as it found them and locks only in order; exchanges of queues must be made in order. -/
theorem code_neutral {rank : Mx → Nat} (ho : LibOrder rank) (f : Fn) (hf : ∀ a b, f = .qSwap a b ∨ f = .qAssign a b → a ≠ b → rank (.queue a) < rank (.queue b)) :
    Neutral rank (code f) := by
  have sec : ∀ m c, Neutral rank c → locks c = [] → Neutral rank (under m c) := fun m c h hl => Neutral.section h (by simp [hl])
  cases f with
  | on e c =>
    refine Neutral.section (((Neutral.acc .nil).append (.attachTo c)).append (.user (.acc .nil))) fun x hx => ?_
    cases c <;> simp [locks, attachTo, under, locks_append] at hx
    subst hx; exact ho e _
  | removeListener e c =>
    refine Neutral.section (((Neutral.acc .nil).append (.detachFrom c)).append (.acc (.user .nil))) fun x hx => ?_
    cases c <;> simp [locks, detachFrom, under, locks_append] at hx
    subst hx; exact ho e _
  | once e => exact sec _ _ (.acc (.user (.acc .nil))) rfl
  | emit e os => exact ((Neutral.acc .nil).append (sec _ _ (.acc .nil) rfl)).append (.emitCalls e os) |>.append (.user .nil)
  | discard e => exact ((Neutral.acc .nil).append (sec _ _ (.acc .nil) rfl)).append (.user .nil)
  | getStats e => exact .acc .nil
  | removeAll e c n => exact (Neutral.detaches e c n).append (.acc (.user .nil))
  | emitUnsafe n => exact Neutral.users n
  | attachService c | detachService c => exact sec _ _ (.acc (.acc .nil)) rfl
  | attachServiceStats c | attachFunction c | detachFunction c | attachPublication c | attachSubscription c | detachSubscription c => exact sec _ _ (.acc .nil) rfl
  | detachPublication c => exact .acc .nil
  | startStop c => exact .acc (.acc (.acc (.acc .nil)))
  | qPush q n => exact Neutral.waitsSection (.acc (.acc .nil)) rfl (.acc (.acc (.user (.acc .nil)))) rfl n
  | qPop q n => exact Neutral.waitsSection (.acc .nil) rfl (.acc (.user (.acc .nil))) rfl n
  | qTryPush q n => exact sec _ _ ((Neutral.append (.acc (.acc .nil)) (.users n)).append (.acc .nil)) (by simp [locks_append, locks_users, locks])
  | qTryPop q => exact sec _ _ (.acc (.user (.acc .nil))) rfl
  | qSize q => exact sec _ _ (.acc .nil) rfl
  | qFull q => exact sec _ _ (.acc (.acc .nil)) rfl
  | qCopy q n => exact sec _ _ (Neutral.append (.acc .nil) (.users n)) (by simp [locks_append, locks_users, locks])
  | qMove q => exact .acc .nil
  | qMoveAssign a b => exact sec _ _ (.acc (.acc (.user .nil))) rfl
  | qSwap a b =>
    by_cases hab : a = b
    · simpa [code, hab] using Neutral.nil
    · have h := hf a b (.inl rfl) hab
      have := Neutral.section (rank := rank) (m := .queue a) (sec (.queue b) [wr (.items a), wr (.items b)] (.acc (.acc .nil)) rfl) (by simp [under, locks]; exact h)
      simpa [code, hab] using this
  | qAssign a b =>
    by_cases hab : a = b
    · simpa [code, hab] using Neutral.nil
    · have h := hf a b (.inr rfl) hab
      have := Neutral.section (rank := rank) (m := .queue a) (sec (.queue b) [rd (.items b), .user .value, wr (.items a), .user .value] (.acc (.user (.acc (.user .nil)))) rfl)
        (by simp [under, locks]; exact h)
      simpa [code, hab] using this
  | qSetBound q => exact .acc .nil
  | envGet n | envSet n | cacheGet l => exact sec _ _ (.acc .nil) rfl
  | zenvGet n => exact .acc .nil
  | zenvSet n => exact .acc (.acc .nil)
  | zenvLoad n ok =>
    cases ok with
    | false => exact .acc .nil
    | true => exact .acc (.acc .nil)
  | zenvPoll n a =>
    cases a with
    | false => exact .nil
    | true => exact .acc .nil
  | cacheEvent l => exact sec _ _ (.user (.acc (.user (.acc .nil)))) rfl
  | cacheRaw l => exact sec _ _ (.acc (.user .nil)) rfl
  | cacheTime l => exact .acc .nil
  | request h => exact sec _ _ (.user (.acc (.user .nil))) rfl
  | reply h n f => exact sec _ _ (.onReply h n f) (locks_onReply h n f)
  | replyEarly h n f => exact .onReply h n f
  | register p => exact sec _ _ (.user (.acc (.user .nil))) rfl
  | unregister p => exact sec _ _ (.acc (.user .nil)) rfl
  | execute p f =>
    cases f with
    | false => exact sec _ _ (.acc .nil) rfl
    | true => exact sec _ _ (.acc (.user .nil)) rfl
  | waitFor w n => simpa [code] using Neutral.waitsSection (rank := rank) (m := .strategy w) (check := []) (c := []) .nil rfl .nil rfl n
  | signal w => exact sec _ _ .nil rfl
  | join w => exact sec _ _ .nil rfl

theorem Neutral.wf {rank : Mx → Nat} {c : List I} (h : Neutral rank c) : WF rank c := by
  have := h.2 [] trivial (by simp [pend])
  simpa using this

theorem Neutral.pend {rank : Mx → Nat} {c : List I} (h : Neutral rank c) : Locks.pend c = [] := by
  have := h.1 []
  rw [List.append_nil] at this
  exact this

/-! ### what threads hold -/

/-- Every lock is followed by its unlock. -/
def WF0 : List I → Prop
  | [] => True
  | .acq m :: r => m ∈ pend r ∧ WF0 r
  | _ :: r => WF0 r

theorem WF.wf0 {rank : Mx → Nat} {r : List I} (h : WF rank r) : WF0 r := by
  induction r with
  | nil => trivial
  | cons i r ih =>
    cases i with
    | acq m => exact ⟨h.1, ih h.2.2⟩
    | _ => exact ih h.tail

theorem code_closed (f : Fn) : WF0 (code f) ∧ pend (code f) = [] := by
  let rank : Mx → Nat := fun m => match m, f with
    | .subscriptions _, _ => 1
    | .queue q, .qSwap _ b => if q = b then 1 else 0
    | .queue q, .qAssign _ b => if q = b then 1 else 0
    | _, _ => 0
  have h := code_neutral (rank := rank) (by intro e c; cases f <;> simp [rank]) f (by
    intro a b e hab; rcases e with rfl | rfl <;> simp [rank, hab])
  exact ⟨h.wf.wf0, h.pend⟩

/-- The mutexes a stack of calls still has to unlock. -/
def flat (l : List (List I)) : List Mx := l.flatMap pend

structure HInv (s : St) : Prop where
  own : ∀ t m, s.owner m = some t ↔ m ∈ flat (s.stack t)
  nodup : ∀ t, (flat (s.stack t)).Nodup
  wf : ∀ t, ∀ fr ∈ s.stack t, WF0 fr

theorem HInv.init : HInv St.init := ⟨by simp [St.init, flat], by simp [St.init, flat], by simp [St.init]⟩

/-- A step that changes only the stack of one thread, and not what it holds. -/
theorem HInv.same {s : St} (h : HInv s) {t : Nat} {l : List (List I)} (hf : flat l = flat (s.stack t)) (hw : ∀ fr ∈ l, WF0 fr) :
    HInv { s with stack := upd s.stack t l } := by
  refine ⟨fun u m => ?_, fun u => ?_, fun u fr hfr => ?_⟩ <;> by_cases hu : u = t
  · subst hu; simpa [hf] using h.own u m
  · simpa [hu] using h.own u m
  · subst hu; simpa [hf] using h.nodup u
  · simpa [hu] using h.nodup u
  · subst hu; exact hw fr (by simpa using hfr)
  · exact h.wf u fr (by simpa [hu] using hfr)

theorem pend_users (k : User) (r : List I) : ∀ n, pend (users k n ++ r) = pend r
  | 0 => rfl
  | n + 1 => by simpa [users, pend] using pend_users k r n

theorem pend_body (w n : Nat) : pend (body w n) = [.life w] := by simp [body, pend_users, pend]

theorem WF_body (rank : Mx → Nat) (w : Nat) : ∀ n, WF rank (body w n)
  | 0 => by simp [body, users, WF]
  | n + 1 => by simpa [body, users, WF] using WF_body rank w n

/-- A thread locks a mutex that is free. -/
theorem HInv.lock {s : St} (h : HInv s) {t : Nat} {m : Mx} (ho : s.owner m = none) {l : List (List I)} (hp : (flat l).Perm (m :: flat (s.stack t)))
    (hw : ∀ fr ∈ l, WF0 fr) : HInv ⟨upd s.stack t l, upd s.owner m (some t)⟩ := by
  have hnot : ∀ u, m ∉ flat (s.stack u) := fun u hu => by
    have := (h.own u m).mpr hu
    rw [ho] at this; cases this
  refine ⟨fun u x => ?_, fun u => ?_, fun u fr hfr => ?_⟩
  · by_cases hu : u = t
    · subst hu
      simp only [upd_same]
      rw [hp.mem_iff, List.mem_cons, ← h.own u x]
      by_cases hx : x = m
      · subst hx; simp
      · simp [hx]
    · simp only [upd_other _ _ hu]
      by_cases hx : x = m
      · subst hx
        simp only [upd_same]
        exact ⟨fun q => absurd (Option.some.inj q) (Ne.symm hu), fun q => absurd q (hnot u)⟩
      · simp only [upd_other _ _ hx]; exact h.own u x
  · by_cases hu : u = t
    · subst hu
      simp only [upd_same]
      rw [hp.nodup_iff, List.nodup_cons]
      exact ⟨hnot u, h.nodup u⟩
    · simp only [upd_other _ _ hu]; exact h.nodup u
  · by_cases hu : u = t
    · subst hu; exact hw fr (by simpa using hfr)
    · simp only [upd_other _ _ hu] at hfr; exact h.wf u fr hfr

theorem HInv.step {s s' : St} (h : HInv s) {a : Act} (hs : step s a = some s') : HInv s' := by
  cases a with
  | spawn w n =>
    simp only [Locks.step] at hs
    split at hs <;> cases hs
    rename_i hc
    exact h.lock hc.2 (by simp [flat, hc.1, pend_body]) (by simp [(WF_body (fun _ => 0) w n).wf0])
  | call t f =>
    simp only [Locks.step] at hs
    have hc := code_closed f
    split at hs
    · rename_i e
      cases hs
      refine h.same (by simp [flat, hc.2, e]) (by simp [hc.1])
    · rename_i k r st e
      cases hs
      have hw := h.wf t
      rw [e] at hw
      refine h.same (by simp [flat, hc.2, e]) (fun fr hfr => ?_)
      rcases List.mem_cons.mp hfr with rfl | hfr
      · exact hc.1
      · exact hw fr hfr
    · cases hs
  | ret t =>
    simp only [Locks.step] at hs
    split at hs <;> cases hs
    rename_i k r st e
    have hw := h.wf t
    rw [e] at hw
    refine h.same (by simp [flat, e, pend]) (fun fr hfr => ?_)
    rcases List.mem_cons.mp hfr with rfl | hfr
    · simpa [WF0] using hw _ (List.mem_cons_self ..)
    · exact hw fr (List.mem_cons_of_mem _ hfr)
  | throw t =>
    simp only [Locks.step] at hs
    split at hs <;> cases hs
    rename_i k r st e
    have hw := h.wf t
    rw [e] at hw
    refine h.same (by simp [flat, e, pend]) (fun fr hfr => ?_)
    rcases List.mem_cons.mp hfr with rfl | hfr
    · exact (WF_map_rel (rank := fun _ => 0) _).wf0
    · exact hw fr (List.mem_cons_of_mem _ hfr)
  | step t =>
    have hw := h.wf t
    have hn := h.nodup t
    simp only [Locks.step] at hs
    split at hs
    · rename_i st e
      cases hs
      rw [e] at hw
      exact h.same (by simp [flat, e, pend]) (fun fr hfr => hw fr (List.mem_cons_of_mem _ hfr))
    · rename_i m r st e
      split at hs <;> cases hs
      rename_i ho
      rw [e] at hw hn
      have hm : m ∈ pend r ∧ WF0 r := by simpa [WF0] using hw _ (List.mem_cons_self ..)
      have hp : (flat (r :: st)).Perm (m :: flat ((.acq m :: r) :: st)) := by
        simp only [flat, List.flatMap_cons, pend]
        exact (List.perm_cons_erase hm.1).append_right _
      refine h.lock ho (by rw [e]; exact hp) (fun fr hfr => ?_)
      rcases List.mem_cons.mp hfr with rfl | hfr
      · exact hm.2
      · exact hw fr (List.mem_cons_of_mem _ hfr)
    · rename_i m r st e
      cases hs
      rw [e] at hw hn
      have hn' : (m :: flat (r :: st)).Nodup := by simpa [flat, pend] using hn
      have hfl : flat (s.stack t) = m :: flat (r :: st) := by rw [e]; simp [flat, pend]
      have hown : s.owner m = some t := (h.own t m).mpr (by rw [hfl]; simp)
      refine ⟨fun u x => ?_, fun u => ?_, fun u fr hfr => ?_⟩
      · by_cases hu : u = t
        · subst hu
          simp only [upd_same]
          by_cases hx : x = m
          · subst hx
            simp only [upd_same]
            exact ⟨fun q => (by cases q), fun q => absurd q (List.nodup_cons.mp hn').1⟩
          · simp only [upd_other _ _ hx]
            rw [h.own u x, hfl]; simp [hx]
        · simp only [upd_other _ _ hu]
          by_cases hx : x = m
          · subst hx
            simp only [upd_same]
            refine ⟨fun q => (by cases q), fun q => ?_⟩
            have := (h.own u x).mpr q
            rw [hown] at this
            exact absurd (Option.some.inj this).symm hu
          · simp only [upd_other _ _ hx]; exact h.own u x
      · by_cases hu : u = t
        · subst hu; simp only [upd_same]; exact (List.nodup_cons.mp hn').2
        · simp only [upd_other _ _ hu]; exact h.nodup u
      · by_cases hu : u = t
        · subst hu
          simp only [upd_same] at hfr
          rcases List.mem_cons.mp hfr with rfl | hfr
          · simpa [WF0] using hw _ (List.mem_cons_self ..)
          · exact hw fr (List.mem_cons_of_mem _ hfr)
        · simp only [upd_other _ _ hu] at hfr; exact h.wf u fr hfr
    · rename_i r st e
      cases hs
      rw [e] at hw
      refine h.same (by simp [flat, e, pend]) (fun fr hfr => ?_)
      rcases List.mem_cons.mp hfr with rfl | hfr
      · simpa [WF0] using hw _ (List.mem_cons_self ..)
      · exact hw fr (List.mem_cons_of_mem _ hfr)
    · rename_i e
      cases hs
      rw [e] at hw
      refine h.same (by simp [flat, e, pend]) (fun fr hfr => ?_)
      rcases List.mem_cons.mp hfr with rfl | hfr
      · simpa [WF0] using hw _ (List.mem_cons_self ..)
      · exact hw fr (List.mem_cons_of_mem _ hfr)
    · cases hs

theorem Reach.hinv {P : St → Nat → Fn → Prop} {s : St} (h : Reach P s) : HInv s := by
  induction h with
  | init => exact .init
  | step a _ _ hs ih => exact ih.step hs

/-! ### the order in which threads lock -/

structure OInv (rank : Mx → Nat) (s : St) : Prop where
  wf : ∀ t, ∀ fr ∈ s.stack t, WF rank fr
  order : ∀ t, (s.stack t).Pairwise (fun x y => ∀ h ∈ pend y, ∀ m ∈ locks x, rank h < rank m)

theorem OInv.init {rank : Mx → Nat} : OInv rank St.init := ⟨by simp [St.init], by simp [St.init]⟩

/-- The innermost call of a thread goes on. -/
theorem OInv.top {rank : Mx → Nat} {s s' : St} (h : OInv rank s) {t : Nat} {i : List I} {r : List I} {st : List (List I)} (e : s.stack t = i :: st)
    (he : s'.stack = upd s.stack t (r :: st)) (hw : WF rank r) (hl : ∀ m ∈ locks r, m ∈ locks i) : OInv rank s' := by
  have hwf := h.wf t
  have hor := h.order t
  rw [e] at hwf hor
  refine ⟨fun u fr hfr => ?_, fun u => ?_⟩ <;> rw [he] at * <;> by_cases hu : u = t
  · subst hu
    simp only [upd_same] at hfr
    rcases List.mem_cons.mp hfr with rfl | hfr
    · exact hw
    · exact hwf fr (List.mem_cons_of_mem _ hfr)
  · simp only [upd_other _ _ hu] at hfr; exact h.wf u fr hfr
  · subst hu
    simp only [upd_same]
    rw [List.pairwise_cons] at hor ⊢
    exact ⟨fun y hy x hx m hm => hor.1 y hy x hx m (hl m hm), hor.2⟩
  · simp only [upd_other _ _ hu]; exact h.order u

theorem locks_tail {i : I} {r : List I} {m : Mx} (h : m ∈ locks r) : m ∈ locks (i :: r) := by
  cases i <;> simp [locks, h]

theorem OInv.step {rank : Mx → Nat} (ho : LibOrder rank) {s s' : St} (hh : HInv s) (h : OInv rank s) {a : Act}
    (hp : ∀ t f, a = .call t f → InOrder rank s t f) (hs : step s a = some s') : OInv rank s' := by
  cases a with
  | spawn w n =>
    simp only [Locks.step] at hs
    split at hs <;> cases hs
    refine ⟨fun u fr hfr => ?_, fun u => ?_⟩ <;> by_cases hu : u = w
    · subst hu
      simp only [upd_same, List.mem_singleton] at hfr
      exact hfr ▸ WF_body rank u n
    · simp only [upd_other _ _ hu] at hfr; exact h.wf u fr hfr
    · subst hu; simp
    · simp only [upd_other _ _ hu]; exact h.order u
  | call t f =>
    have hin := hp t f rfl
    have hc := code_neutral ho f hin.2
    have key : ∀ l, s.stack t = l → s' = { s with stack := upd s.stack t (code f :: l) } → OInv rank s' := by
      intro l e e'
      subst e'
      refine ⟨fun u fr hfr => ?_, fun u => ?_⟩ <;> by_cases hu : u = t
      · subst hu
        simp only [upd_same] at hfr
        rcases List.mem_cons.mp hfr with rfl | hfr
        · exact hc.wf
        · exact h.wf u fr (by rw [e]; exact hfr)
      · simp only [upd_other _ _ hu] at hfr; exact h.wf u fr hfr
      · subst hu
        simp only [upd_same]
        rw [List.pairwise_cons]
        refine ⟨fun y hy x hx m hm => hin.1 x ((hh.own u x).mpr ?_) m hm, e ▸ h.order u⟩
        rw [e]; exact List.mem_flatMap.mpr ⟨y, hy, hx⟩
      · simp only [upd_other _ _ hu]; exact h.order u
    simp only [Locks.step] at hs
    split at hs
    · rename_i e; cases hs; exact key _ e rfl
    · rename_i k r st e; cases hs; exact key _ e rfl
    · cases hs
  | ret t =>
    simp only [Locks.step] at hs
    split at hs <;> cases hs
    rename_i k r st e
    exact h.top e rfl (WF.tail (h.wf t _ (by rw [e]; exact List.mem_cons_self ..))) (fun m hm => locks_tail hm)
  | throw t =>
    simp only [Locks.step] at hs
    split at hs <;> cases hs
    rename_i k r st e
    exact h.top e rfl (WF_map_rel _) (fun m hm => by simp [unwind, locks_map_rel] at hm)
  | step t =>
    simp only [Locks.step] at hs
    split at hs
    · rename_i st e
      cases hs
      have hor := h.order t
      rw [e] at hor
      refine ⟨fun u fr hfr => ?_, fun u => ?_⟩ <;> by_cases hu : u = t
      · subst hu
        simp only [upd_same] at hfr
        exact h.wf u fr (by rw [e]; exact List.mem_cons_of_mem _ hfr)
      · simp only [upd_other _ _ hu] at hfr; exact h.wf u fr hfr
      · subst hu
        simp only [upd_same]; exact (List.pairwise_cons.mp hor).2
      · simp only [upd_other _ _ hu]; exact h.order u
    · rename_i m r st e
      split at hs <;> cases hs
      exact h.top e rfl (WF.tail (h.wf t _ (by rw [e]; exact List.mem_cons_self ..))) (fun m hm => locks_tail hm)
    · rename_i m r st e
      cases hs
      exact h.top e rfl (WF.tail (h.wf t _ (by rw [e]; exact List.mem_cons_self ..))) (fun m hm => locks_tail hm)
    · rename_i r st e
      cases hs
      exact h.top e rfl (WF.tail (h.wf t _ (by rw [e]; exact List.mem_cons_self ..))) (fun m hm => locks_tail hm)
    · rename_i e
      cases hs
      exact h.top e rfl (WF.tail (h.wf t _ (by rw [e]; exact List.mem_cons_self ..))) (fun m hm => locks_tail hm)
    · cases hs

theorem Reach.oinv {rank : Mx → Nat} (ho : LibOrder rank) {s : St} (h : Reach (InOrder rank) s) : OInv rank s := by
  induction h with
  | init => exact .init
  | step a hr hp hs ih => exact ih.step ho hr.hinv hp hs

/-- A thread that is about to lock a mutex holds only earlier ones. -/
theorem OInv.blocked {rank : Mx → Nat} {s : St} (hh : HInv s) (h : OInv rank s) {t : Nat} {m : Mx} {r : List I} {st : List (List I)}
    (e : s.stack t = (.acq m :: r) :: st) {x : Mx} (hx : s.owner x = some t) : rank x < rank m := by
  have hm := (hh.own t x).mp hx
  rw [e] at hm
  simp only [flat, List.flatMap_cons, List.mem_append] at hm
  rcases hm with hm | hm
  · have := h.wf t _ (by rw [e]; exact List.mem_cons_self ..)
    exact this.2.1 x hm
  · obtain ⟨y, hy, hxy⟩ := List.mem_flatMap.mp hm
    have := h.order t
    rw [e, List.pairwise_cons] at this
    exact this.1 y hy x hxy m (by simp [locks])

/-- Only finitely many threads are inside the library. -/
theorem Reach.finite {P : St → Nat → Fn → Prop} {s : St} (h : Reach P s) : ∃ L : List Nat, ∀ t, s.stack t ≠ [] → t ∈ L := by
  induction h with
  | init => exact ⟨[], by simp [St.init]⟩
  | step a _ _ hs ih =>
    obtain ⟨L, hL⟩ := ih
    refine ⟨a.thread :: L, fun t ht => ?_⟩
    by_cases hta : t = a.thread
    · simp [hta]
    · refine List.mem_cons_of_mem _ (hL t ?_)
      intro hz
      apply ht
      cases a <;> simp only [Act.thread] at hta <;> simp only [Locks.step] at hs <;> (repeat' split at hs) <;> cases hs <;> simp [hta, hz]

/-! ### where nothing is held -/

/-- Listeners are called, and condition variables are waited for, while the function holds nothing; rounds of a worker hold no mutex. -/
def Bare : List I → Prop
  | [] => True
  | .user .listener :: r => pend r = [] ∧ Bare r
  | .user .worker :: r => (∀ m ∈ pend r, m.isMutex = false) ∧ Bare r
  | .wait :: r => pend r = [] ∧ Bare r
  | _ :: r => Bare r

theorem Bare.body (w : Nat) : ∀ n, Bare (body w n)
  | 0 => by simp [Locks.body, users, Bare]
  | n + 1 => by
    refine ⟨fun m hm => ?_, Bare.body w n⟩
    have hm' : m ∈ pend (Locks.body w n) := hm
    rw [pend_body] at hm'
    rw [List.mem_singleton.mp hm']; rfl

theorem Bare.tail {i : I} {r : List I} (h : Bare (i :: r)) : Bare r := by
  cases i with
  | user k => cases k <;> first | exact h | exact h.2
  | wait => exact h.2
  | _ => exact h

theorem Bare.map_rel (l : List Mx) : Bare (l.map .rel) := by
  induction l with
  | nil => trivial
  | cons m l ih => simpa [Bare] using ih

theorem Bare.attachTo (c : Option Nat) {r : List I} (h : Bare r) : Bare (attachTo c ++ r) := by
  cases c <;> simpa [Locks.attachTo, under, Bare] using h

theorem Bare.detachFrom (c : Option Nat) {r : List I} (h : Bare r) : Bare (detachFrom c ++ r) := by
  cases c <;> simpa [Locks.detachFrom, under, Bare] using h

theorem Bare.detaches (e : Nat) (c : Option Nat) {r : List I} (h : Bare r) : ∀ n, Bare (detaches e c n ++ r)
  | 0 => by simpa [Locks.detaches] using h
  | n + 1 => by
    simp only [Locks.detaches, List.append_assoc, List.cons_append, Bare]
    exact Bare.detachFrom c (Bare.detaches e c h n)

theorem Bare.users {k : User} (hk : k ≠ .listener) (hk' : k ≠ .worker) {r : List I} (h : Bare r) : ∀ n, Bare (users k n ++ r)
  | 0 => by simpa [Locks.users] using h
  | n + 1 => by
    have := Bare.users hk hk' h n
    cases k <;> simp_all [Locks.users, Bare]

theorem Bare.tries (x : Nat) {r : List I} (h : Bare r) : ∀ n, Bare (tries x n ++ r)
  | 0 => by simpa [Locks.tries] using h
  | n + 1 => by simpa [Locks.tries, Bare] using Bare.tries x h n

theorem Bare.onReply (x n : Nat) (f : Bool) {r : List I} (h : Bare r) : Bare (onReply x n f ++ r) := by
  simp only [Locks.onReply, List.append_assoc]
  refine Bare.tries x ?_ n
  cases f <;> simpa [Bare] using h

theorem Bare.listeners : ∀ n, Bare (Locks.users .listener n) ∧ pend (Locks.users .listener n) = []
  | 0 => ⟨trivial, rfl⟩
  | n + 1 => by
    have := Bare.listeners n
    simp [Locks.users, Bare, pend, this]

theorem Bare.emitCalls (e : Nat) {r : List I} (h : Bare r) (hp : pend r = []) : ∀ os, Bare (emitCalls e os ++ r)
  | [] => by simpa [Locks.emitCalls] using h
  | o :: os => by
    have ih := Bare.emitCalls e h hp os
    have hn : pend (Locks.emitCalls e os ++ r) = [] := by rw [(Neutral.emitCalls (rank := fun _ => 0) e os).1]; exact hp
    cases o <;> simp [Locks.emitCalls, under, Bare, pend, ih, hn]

theorem Bare.waits (m : Mx) (xs : List Var) {r : List I} (h : Bare r) (hp : pend r = [m]) :
    ∀ n, Bare (waits m (xs.map rd) n ++ r) ∧ pend (waits m (xs.map rd) n ++ r) = [m]
  | 0 => by simpa [Locks.waits] using ⟨h, hp⟩
  | n + 1 => by
    have ih := Bare.waits m xs h hp n
    have hx : ∀ (l : List Var) {r' : List I}, Bare r' → pend r' = [m] → Bare (l.map rd ++ r') ∧ pend (l.map rd ++ r') = [m] := by
      intro l r' hb hp
      induction l with
      | nil => exact ⟨hb, hp⟩
      | cons a l ihl => simpa [Bare, pend] using ihl
    have e : Locks.waits m (xs.map rd) (n + 1) ++ r = xs.map rd ++ ([.rel m, .wait, .acq m] ++ (Locks.waits m (xs.map rd) n ++ r)) := by
      simp [Locks.waits]
    rw [e]
    exact hx xs (by simp [Bare, pend, ih]) (by simp [pend, ih])

theorem code_bare (f : Fn) : Bare (code f) := by
  have hv : Bare [.user .value] := by simp [Bare]
  cases f with
  | on e c => simpa [code, under, Bare] using Bare.attachTo c (r := [.user .value, wr (.listeners e), .rel (.emitter e)]) (by simp [Bare])
  | removeListener e c => simpa [code, under, Bare] using Bare.detachFrom c (r := [wr (.listeners e), .user .value, .rel (.emitter e)]) (by simp [Bare])
  | emit e os => simpa [code, under, Bare] using Bare.emitCalls e hv rfl os
  | removeAll e c n => exact Bare.detaches e c (by simp [Bare]) n
  | emitUnsafe n => exact (Bare.listeners n).1
  | qPush q n =>
    simpa [code, under, Bare] using (Bare.waits (.queue q) [.items q, .bound q] (r := [rd (.items q), rd (.bound q), .user .value, wr (.items q), .rel (.queue q)])
      (by simp [Bare]) rfl n).1
  | qPop q n =>
    simpa [code, under, Bare] using (Bare.waits (.queue q) [.items q] (r := [rd (.items q), .user .value, wr (.items q), .rel (.queue q)]) (by simp [Bare]) rfl n).1
  | qTryPush q n => simpa [code, under, Bare] using Bare.users (k := .value) (by simp) (by simp) (r := [wr (.items q), .rel (.queue q)]) (by simp [Bare]) n
  | qCopy q n => simpa [code, under, Bare] using Bare.users (k := .value) (by simp) (by simp) (r := [.rel (.queue q)]) (by simp [Bare]) n
  | qSwap a b => by_cases h : a = b <;> simp [code, under, h, Bare]
  | qAssign a b => by_cases h : a = b <;> simp [code, under, h, Bare]
  | reply h n f => exact Bare.onReply h n f (by simp [Bare])
  | replyEarly h n f => simpa [code] using Bare.onReply h n f (r := []) (by simp [Bare])
  | execute p f => cases f <;> simp [code, under, Bare]
  | zenvLoad n ok => cases ok <;> simp [code, Bare]
  | zenvPoll n a => cases a <;> simp [code, Bare]
  | waitFor w n => simpa [code, under, Bare] using (Bare.waits (.strategy w) [] (r := [.rel (.strategy w)]) (by simp [Bare]) rfl n).1
  | _ => simp [code, under, Bare]

theorem Reach.bare {P : St → Nat → Fn → Prop} {s : St} (h : Reach P s) : ∀ t, ∀ fr ∈ s.stack t, Bare fr := by
  induction h with
  | init => simp [St.init]
  | @step s s' a _ _ hs ih =>
    intro u fr hfr
    by_cases hu : u = a.thread
    · subst hu
      have key : ∀ {t : Nat} {i : I} {r : List I} {st : List (List I)} {r' : List I}, s.stack t = (i :: r) :: st → (Bare r → Bare r') → fr ∈ r' :: st → Bare fr := by
        intro t i r st r' e hr hfr
        have := ih t
        rw [e] at this
        rcases List.mem_cons.mp hfr with rfl | hfr
        · exact hr (this _ (List.mem_cons_self ..)).tail
        · exact this fr (List.mem_cons_of_mem _ hfr)
      cases a with
      | spawn w n =>
        simp only [Locks.step] at hs
        split at hs <;> cases hs
        simp only [Act.thread, upd_same, List.mem_singleton] at hfr
        exact hfr ▸ Bare.body w n
      | call t f =>
        have := ih t
        simp only [Locks.step] at hs
        split at hs <;> cases hs <;> rename_i e <;> rw [e] at this <;> simp only [Act.thread, upd_same] at hfr <;>
          rcases List.mem_cons.mp hfr with rfl | hfr <;> first | exact code_bare f | exact this fr hfr
      | ret t =>
        simp only [Locks.step] at hs
        split at hs <;> cases hs
        rename_i e
        exact key e id (by simpa [Act.thread] using hfr)
      | throw t =>
        simp only [Locks.step] at hs
        split at hs <;> cases hs
        rename_i e
        exact key e (fun _ => Bare.map_rel _) (by simpa [Act.thread, unwind] using hfr)
      | step t =>
        simp only [Locks.step] at hs
        split at hs
        · rename_i st e
          cases hs
          have := ih t
          rw [e] at this
          simp only [Act.thread, upd_same] at hfr
          exact this fr (List.mem_cons_of_mem _ hfr)
        · rename_i e
          split at hs <;> cases hs
          exact key e id (by simpa [Act.thread] using hfr)
        · rename_i e; cases hs; exact key e id (by simpa [Act.thread] using hfr)
        · rename_i e; cases hs; exact key e id (by simpa [Act.thread] using hfr)
        · rename_i e; cases hs; exact key e id (by simpa [Act.thread] using hfr)
        · cases hs
    · refine ih u fr ?_
      cases a <;> simp only [Act.thread] at hu <;> simp only [Locks.step] at hs <;> (repeat' split at hs) <;> cases hs <;> simpa [hu] using hfr

end Verif.Locks
