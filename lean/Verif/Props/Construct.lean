import Verif.Model.Construct

/-!
C94: an object that hands itself to other threads in its constructor is finished as far as they are concerned.  "Sound": whatever calls arrive on whatever
threads while the constructor runs and afterwards, no call uses a part that has not been constructed, and every call does what a call of the same kind does
after the construction (in particular it runs under the mutex if it would later).
-/

namespace Verif.Construct
open Verif

/-- The level at which the construction ends. -/
def top (prog : List CAct) : Nat := prog.count .level

/-- No execution goes wrong, and calls during the construction are like calls after it. -/
def Sound (c : Cls) (prog : List CAct) : Prop :=
  ∀ s, Reach c (fun _ _ => True) (.start prog) s → s.bad = false ∧ ∀ t l, (t, l) ∈ s.calls → c t l = c t (top prog)

/-- What is checked at every point of the constructor: the sources open so far use only what has been constructed, and do what they do in the end. -/
def ready (c : Cls) (n : Nat) (made : List Mem) (l : Nat) (opened : List Src) : Bool :=
  opened.all fun t => (c t l).uses.all (fun m => decide (m ∈ made)) && decide (c t l = c t n)

/-- Static check of a constructor. -/
def check (c : Cls) (n : Nat) : List Mem → Nat → List Src → List CAct → Bool
  | made, l, op, [] => ready c n made l op
  | made, l, op, .init m :: p => ready c n made l op && check c n (m :: made) l op p
  | made, l, op, .level :: p => ready c n made l op && check c n made (l + 1) op p
  | made, l, op, .opened t :: p => ready c n made l op && check c n made l (t :: op) p
  | made, l, op, .use m :: p => ready c n made l op && decide (m ∈ made) && check c n made l op p

theorem check_ready {c : Cls} {n : Nat} {made : List Mem} {l : Nat} {op : List Src} {p : List CAct} (h : check c n made l op p = true) :
    ready c n made l op = true := by
  cases p with
  | nil => exact h
  | cons a p => cases a <;> simp only [check, Bool.and_eq_true] at h <;> first | exact h.1 | exact h.1.1

theorem ready_iff {c : Cls} {n : Nat} {made : List Mem} {l : Nat} {op : List Src} :
    ready c n made l op = true ↔ ∀ t ∈ op, (∀ m ∈ (c t l).uses, m ∈ made) ∧ c t l = c t n := by
  simp [ready]

structure Inv (c : Cls) (n : Nat) (s : St) : Prop where
  chk : check c n s.made s.level s.opened s.rest = true
  run : ∀ k t l, s.pc k = some (t, l) → ∀ m ∈ (c t l).uses, m ∈ s.made
  calls : ∀ t l, (t, l) ∈ s.calls → c t l = c t n
  fine : s.bad = false

theorem Inv.step {c : Cls} {n : Nat} {s s' : St} {a : Act} (hi : Inv c n s) (hs : Construct.step c s a = some s') : Inv c n s' := by
  cases a with
  | ctor =>
    simp only [Construct.step] at hs
    have hc := hi.chk
    split at hs <;> cases hs <;> rename_i h <;> rw [h] at hc <;> simp only [check, Bool.and_eq_true, decide_eq_true_eq] at hc
    · exact { hi with chk := hc.2, run := fun k t l h m hm => List.mem_cons_of_mem _ (hi.run k t l h m hm) }
    · exact { hi with chk := hc.2 }
    · exact { hi with chk := hc.2 }
    · exact { hi with chk := hc.2, fine := by show (s.bad || _) = false; rw [hi.fine]; simp [hc.1.2] }
  | enter k t =>
    simp only [Construct.step] at hs
    have hr := ready_iff.mp (check_ready hi.chk)
    split at hs
    · next hop =>
      have hrun : ∀ k' t' l', upd s.pc k (some (t, s.level)) k' = some (t', l') → ∀ m ∈ (c t' l').uses, m ∈ s.made := by
        intro k' t' l' h m hm
        rw [upd_apply] at h
        split at h
        · simp only [Option.some.injEq, Prod.mk.injEq] at h
          obtain ⟨rfl, rfl⟩ := h
          exact (hr t hop.1).1 m hm
        · exact hi.run k' t' l' h m hm
      have hcalls : ∀ t' l', (t', l') ∈ (t, s.level) :: s.calls → c t' l' = c t' n := by
        intro t' l' h
        rcases List.mem_cons.mp h with h | h
        · simp only [Prod.mk.injEq] at h; obtain ⟨rfl, rfl⟩ := h; exact (hr _ hop.1).2
        · exact hi.calls t' l' h
      split at hs
      · split at hs <;> cases hs
        exact { hi with run := hrun, calls := hcalls }
      · cases hs
        exact { hi with run := hrun, calls := hcalls }
    · cases hs
  | tuse k m =>
    simp only [Construct.step] at hs
    split at hs
    · next t l h =>
      split at hs <;> cases hs
      next hm => exact { hi with fine := by show (s.bad || _) = false; rw [hi.fine]; simp [hi.run k t l h m hm] }
    · cases hs
  | leave k =>
    simp only [Construct.step] at hs
    split at hs <;> cases hs
    refine { hi with run := fun k' t' l' h m hm => ?_ }
    dsimp only at h
    rw [upd_apply] at h
    split at h
    · cases h
    · exact hi.run k' t' l' h m hm

/-- The static check is enough: for every class and constructor, any number of calls on any number of threads. -/
theorem C94_check_sound {c : Cls} {prog : List CAct} (h : check c (top prog) [] 0 [] prog = true) : Sound c prog := by
  intro s hr
  have hi : Inv c (top prog) s := by
    induction hr with
    | refl => exact ⟨h, by simp [St.start], by simp [St.start], rfl⟩
    | step _ _ hs ih => exact ih.step hs
  exact ⟨hi.fine, hi.calls⟩

/-! ### The check is exact -/

theorem Reach.head {c : Cls} {s s' s'' : St} {a : Act} (hs : Construct.step c s a = some s') (h : Reach c (fun _ _ => True) s' s'') :
    Reach c (fun _ _ => True) s s'' := by
  induction h with
  | refl => exact .step .refl trivial hs
  | step _ _ hs' ih => exact .step ih trivial hs'

/-- Something went wrong. -/
def Wrong (c : Cls) (n : Nat) (s : St) : Prop := s.bad = true ∨ ∃ t l, (t, l) ∈ s.calls ∧ c t l ≠ c t n

/-- A source that is not ready can go wrong at once, if no call is in progress. -/
theorem wrong_of_not_ready {c : Cls} {n : Nat} {s : St} (hid : ∀ k, s.pc k = none) (how : s.owner = none)
    (h : ready c n s.made s.level s.opened = false) : ∃ s', Reach c (fun _ _ => True) s s' ∧ Wrong c n s' := by
  have h' : ¬ ∀ t ∈ s.opened, (∀ m ∈ (c t s.level).uses, m ∈ s.made) ∧ c t s.level = c t n := by
    rw [← ready_iff, h]; simp
  simp only [Classical.not_forall] at h'
  obtain ⟨t, ht, h'⟩ := h'
  obtain ⟨s1, e1, hc1, hp1, hm1, hb1⟩ : ∃ s1, Construct.step c s (.enter 0 t) = some s1 ∧ (t, s.level) ∈ s1.calls ∧ s1.pc 0 = some (t, s.level) ∧ s1.made = s.made ∧ s1.bad = s.bad := by
    simp only [Construct.step, ht, hid 0, and_self, if_true, how]
    split <;> exact ⟨_, rfl, by simp, by simp, rfl, rfl⟩
  by_cases hd : c t s.level = c t n
  · have hu : ¬ ∀ m ∈ (c t s.level).uses, m ∈ s.made := fun hu => h' ⟨hu, hd⟩
    simp only [Classical.not_forall] at hu
    obtain ⟨m, hm, hn⟩ := hu
    refine ⟨{ s1 with bad := s1.bad || decide (m ∉ s1.made) }, .step (.step .refl trivial e1) (a := .tuse 0 m) trivial ?_, .inl ?_⟩
    · simp only [Construct.step, hp1, hm, if_true]
    · simp [hm1, hn]
  · exact ⟨s1, .step .refl trivial e1, .inr ⟨t, s.level, hc1, hd⟩⟩

theorem check_wrong {c : Cls} {n : Nat} (p : List CAct) : ∀ {s : St}, s.rest = p → (∀ k, s.pc k = none) → s.owner = none →
    check c n s.made s.level s.opened p = false → ∃ s', Reach c (fun _ _ => True) s s' ∧ Wrong c n s' := by
  induction p with
  | nil => intro s hr hid how h; exact wrong_of_not_ready hid how h
  | cons a p ih =>
    intro s hr hid how h
    by_cases hq : ready c n s.made s.level s.opened = true
    · cases a with
      | init m =>
        simp only [check, hq, Bool.true_and] at h
        have e : Construct.step c s .ctor = some { s with rest := p, made := m :: s.made } := by simp [Construct.step, hr]
        obtain ⟨s', hs', hw⟩ := ih (s := { s with rest := p, made := m :: s.made }) rfl hid how h
        exact ⟨s', Reach.head e hs', hw⟩
      | level =>
        simp only [check, hq, Bool.true_and] at h
        have e : Construct.step c s .ctor = some { s with rest := p, level := s.level + 1 } := by simp [Construct.step, hr]
        obtain ⟨s', hs', hw⟩ := ih (s := { s with rest := p, level := s.level + 1 }) rfl hid how h
        exact ⟨s', Reach.head e hs', hw⟩
      | opened t =>
        simp only [check, hq, Bool.true_and] at h
        have e : Construct.step c s .ctor = some { s with rest := p, opened := t :: s.opened } := by simp [Construct.step, hr]
        obtain ⟨s', hs', hw⟩ := ih (s := { s with rest := p, opened := t :: s.opened }) rfl hid how h
        exact ⟨s', Reach.head e hs', hw⟩
      | use m =>
        simp only [check, hq, Bool.true_and, Bool.and_eq_false_iff, decide_eq_false_iff_not] at h
        have e : Construct.step c s .ctor = some { s with rest := p, bad := s.bad || decide (m ∉ s.made) } := by simp [Construct.step, hr]
        rcases h with h | h
        · exact ⟨_, Reach.head e .refl, .inl (by simp [h])⟩
        · obtain ⟨s', hs', hw⟩ := ih (s := { s with rest := p, bad := s.bad || decide (m ∉ s.made) }) rfl hid how h
          exact ⟨s', Reach.head e hs', hw⟩
    · exact wrong_of_not_ready hid how (by simpa using hq)

/-- A constructor that fails the check is not sound: some interleaving goes wrong. -/
theorem C94_check_complete {c : Cls} {prog : List CAct} (h : check c (top prog) [] 0 [] prog = false) : ¬ Sound c prog := by
  intro hs
  obtain ⟨s', hr, hw⟩ := check_wrong (c := c) (n := top prog) prog (s := .start prog) rfl (fun _ => rfl) rfl h
  have := hs s' hr
  rcases hw with hw | ⟨t, l, hm, hne⟩
  · rw [this.1] at hw; cases hw
  · exact hne (this.2 t l hm)

/-! ### The mutex -/

structure LockInv (c : Cls) (n : Nat) (s : St) : Prop where
  came : ∀ k t l, s.pc k = some (t, l) → (t, l) ∈ s.calls
  lock : ∀ k, s.owner = some k ↔ ∃ t l, s.pc k = some (t, l) ∧ (c t l).locked = true

theorem LockInv.step {c : Cls} {n : Nat} {s s' : St} {a : Act} (hi : LockInv c n s) (hs : Construct.step c s a = some s') : LockInv c n s' := by
  cases a with
  | ctor => simp only [Construct.step] at hs; split at hs <;> cases hs <;> exact ⟨hi.came, hi.lock⟩
  | tuse k m =>
    simp only [Construct.step] at hs
    split at hs
    · split at hs <;> cases hs; exact ⟨hi.came, hi.lock⟩
    · cases hs
  | enter k t =>
    simp only [Construct.step] at hs
    split at hs
    · next hop =>
      have hcame : ∀ k' t' l', upd s.pc k (some (t, s.level)) k' = some (t', l') → (t', l') ∈ (t, s.level) :: s.calls := by
        intro k' t' l' h
        rw [upd_apply] at h
        split at h
        · simp only [Option.some.injEq] at h; rw [← h]; exact List.mem_cons_self
        · exact List.mem_cons_of_mem _ (hi.came k' t' l' h)
      split at hs
      · next hl =>
        split at hs <;> cases hs
        next how =>
        refine ⟨hcame, fun k' => ?_⟩
        dsimp only
        rw [upd_apply]
        by_cases hk : k' = k
        · subst hk
          refine ⟨fun _ => ⟨t, s.level, by simp, hl⟩, fun _ => rfl⟩
        · simp only [if_neg hk]
          refine ⟨fun h => absurd (Option.some.inj h).symm hk, fun h => ?_⟩
          rw [(hi.lock k').mpr h] at how
          cases how
      · next hl =>
        cases hs
        refine ⟨hcame, fun k' => ?_⟩
        dsimp only
        rw [upd_apply]
        by_cases hk : k' = k
        · subst hk
          rw [hi.lock k', hop.2]
          simp only [if_true, Option.some.injEq, Prod.mk.injEq]
          constructor
          · rintro ⟨_, _, h, _⟩; cases h
          · rintro ⟨t', l', ⟨rfl, rfl⟩, h⟩; exact absurd h hl
        · simp only [if_neg hk]; exact hi.lock k'
    · cases hs
  | leave k =>
    simp only [Construct.step] at hs
    split at hs <;> cases hs
    next t l hpc =>
    refine ⟨fun k' t' l' h => ?_, fun k' => ?_⟩
    · dsimp only at h
      rw [upd_apply] at h
      split at h
      · cases h
      · exact hi.came k' t' l' h
    · dsimp only
      rw [upd_apply]
      by_cases hk : k' = k
      · subst hk
        simp only [if_true]
        constructor
        · intro h
          split at h
          · cases h
          · next hl =>
            obtain ⟨t', l', h', hl'⟩ := (hi.lock k').mp h
            rw [hpc] at h'
            simp only [Option.some.injEq, Prod.mk.injEq] at h'
            obtain ⟨rfl, rfl⟩ := h'
            exact absurd hl' hl
        · rintro ⟨_, _, h, _⟩; cases h
      · simp only [if_neg hk]
        rw [← hi.lock k']
        constructor
        · intro h
          split at h
          · cases h
          · exact h
        · intro h
          split
          · next hl =>
            have := (hi.lock k).mpr ⟨t, l, hpc, hl⟩
            rw [h] at this
            exact absurd (Option.some.inj this) hk
          · exact h

theorem Reach.lockInv {c : Cls} {P : St → Act → Prop} {prog : List CAct} {s : St} (h : Reach c P (.start prog) s) : LockInv c 0 s := by
  induction h with
  | refl => exact ⟨by simp [St.start], by simp [St.start]⟩
  | step _ _ hs ih => exact ih.step hs

/-- Calls that run under the mutex exclude each other, from the first call on: at most one thread is inside. -/
theorem C94_serial {c : Cls} {P : St → Act → Prop} {prog : List CAct} {s : St} (h : Reach c P (.start prog) s)
    (hl : ∀ t l, (t, l) ∈ s.calls → (c t l).locked = true) {k k' : Nat} (hk : s.pc k ≠ none) (hk' : s.pc k' ≠ none) : k = k' := by
  have hi := h.lockInv
  obtain ⟨⟨t, l⟩, e⟩ := Option.ne_none_iff_exists'.mp hk
  obtain ⟨⟨t', l'⟩, e'⟩ := Option.ne_none_iff_exists'.mp hk'
  have h1 := (hi.lock k).mpr ⟨t, l, e, hl t l (hi.came k t l e)⟩
  have h2 := (hi.lock k').mpr ⟨t', l', e', hl t' l' (hi.came k' t' l' e')⟩
  rw [h1] at h2
  exact Option.some.inj h2

/-! ### Without calls during the construction -/

/-- No call arrives before the constructor has finished. -/
def Undisturbed (s : St) (a : Act) : Prop :=
  match a with
  | .enter .. => s.rest = []
  | _ => True

/-- What has been constructed in the end. -/
def parts : List CAct → List Mem
  | [] => []
  | .init m :: p => m :: parts p
  | .level :: p => parts p
  | .opened _ :: p => parts p
  | .use _ :: p => parts p

/-- The constructor itself uses only what it has constructed. -/
def ownUses : List Mem → List CAct → Bool
  | _, [] => true
  | made, .init m :: p => ownUses (m :: made) p
  | made, .level :: p => ownUses made p
  | made, .opened _ :: p => ownUses made p
  | made, .use m :: p => decide (m ∈ made) && ownUses made p

structure UInv (c : Cls) (n : Nat) (ps : List Mem) (s : St) : Prop where
  lvl : s.level + s.rest.count .level = n
  all : ∀ m ∈ ps, m ∈ s.made ∨ m ∈ parts s.rest
  own : ownUses s.made s.rest = true
  run : ∀ k t l, s.pc k = some (t, l) → s.rest = [] ∧ l = n
  calls : ∀ t l, (t, l) ∈ s.calls → l = n
  fine : s.bad = false

theorem UInv.step {c : Cls} {n : Nat} {ps : List Mem} (hu : ∀ t, ∀ m ∈ (c t n).uses, m ∈ ps) {s s' : St} {a : Act} (hi : UInv c n ps s) (hP : Undisturbed s a)
    (hs : Construct.step c s a = some s') : UInv c n ps s' := by
  cases a with
  | ctor =>
    simp only [Construct.step] at hs
    have hl := hi.lvl
    have ha := hi.all
    have ho := hi.own
    have hrun : s.rest ≠ [] → ∀ k t l, s.pc k = some (t, l) → False := fun hr k t l h => hr (hi.run k t l h).1
    split at hs <;> cases hs <;> rename_i h <;> rw [h] at hl ha ho <;> (have hr := hrun (by rw [h]; simp))
    · next m p =>
      refine { hi with lvl := by simpa using hl, own := ho, all := fun x hx => ?_, run := fun k t l h => absurd h (fun h => hr k t l h) }
      rcases ha x hx with h | h
      · exact .inl (List.mem_cons_of_mem _ h)
      · rcases List.mem_cons.mp h with rfl | h
        · exact .inl List.mem_cons_self
        · exact .inr h
    · next p =>
      exact { hi with
        lvl := by rw [List.count_cons_self] at hl; dsimp only; omega
        all := ha, own := ho, run := fun k t l h => absurd h (fun h => hr k t l h) }
    · exact { hi with lvl := by simpa using hl, all := ha, own := ho, run := fun k t l h => absurd h (fun h => hr k t l h) }
    · simp only [ownUses, Bool.and_eq_true, decide_eq_true_eq] at ho
      exact { hi with
        lvl := by simpa using hl
        all := ha, own := ho.2, run := fun k t l h => absurd h (fun h => hr k t l h)
        fine := by show (s.bad || _) = false; rw [hi.fine]; simp [ho.1] }
  | enter k t =>
    have hP : s.rest = [] := hP
    have hn : s.level = n := by have := hi.lvl; rw [hP] at this; simpa using this
    have hrun : ∀ k' t' l', upd s.pc k (some (t, s.level)) k' = some (t', l') → s.rest = [] ∧ l' = n := by
      intro k' t' l' h
      rw [upd_apply] at h
      split at h
      · simp only [Option.some.injEq, Prod.mk.injEq] at h; exact ⟨hP, h.2 ▸ hn⟩
      · exact hi.run k' t' l' h
    have hcalls : ∀ t' l', (t', l') ∈ (t, s.level) :: s.calls → l' = n := by
      intro t' l' h
      rcases List.mem_cons.mp h with h | h
      · simp only [Prod.mk.injEq] at h; exact h.2 ▸ hn
      · exact hi.calls t' l' h
    simp only [Construct.step] at hs
    split at hs
    · split at hs
      · split at hs <;> cases hs; exact { hi with run := hrun, calls := hcalls }
      · cases hs; exact { hi with run := hrun, calls := hcalls }
    · cases hs
  | tuse k m =>
    simp only [Construct.step] at hs
    split at hs
    · next t l h =>
      split at hs <;> cases hs
      next hm =>
      obtain ⟨hr, rfl⟩ := hi.run k t l h
      have hmade : m ∈ s.made := by
        rcases hi.all m (hu t m hm) with h | h
        · exact h
        · rw [hr] at h; cases h
      exact { hi with fine := by show (s.bad || _) = false; rw [hi.fine]; simp [hmade] }
    · cases hs
  | leave k =>
    simp only [Construct.step] at hs
    split at hs <;> cases hs
    refine { hi with run := fun k' t' l' h => ?_ }
    dsimp only at h
    rw [upd_apply] at h
    split at h
    · cases h
    · exact hi.run k' t' l' h

theorem undisturbed {c : Cls} {prog : List CAct} (ho : ownUses [] prog = true) (hu : ∀ t, ∀ m ∈ (c t (top prog)).uses, m ∈ parts prog) {s : St}
    (h : Reach c Undisturbed (.start prog) s) : s.bad = false ∧ ∀ t l, (t, l) ∈ s.calls → l = top prog := by
  have hi : UInv c (top prog) (parts prog) s := by
    induction h with
    | refl => exact ⟨by simp [St.start, top], fun m hm => .inr hm, ho, by simp [St.start], by simp [St.start], rfl⟩
    | step _ hP hs ih => exact ih.step hu hP hs
  exact ⟨hi.fine, hi.calls⟩

/-- Calls come only from sources the constructor opened. -/
theorem Reach.sources {c : Cls} {P : St → Act → Prop} {prog : List CAct} {s : St} (h : Reach c P (.start prog) s) :
    (∀ a ∈ s.rest, a ∈ prog) ∧ (∀ t ∈ s.opened, .opened t ∈ prog) ∧ ∀ t l, (t, l) ∈ s.calls → .opened t ∈ prog := by
  induction h with
  | refl => simp [St.start]
  | @step s s' a _ _ hs ih =>
    obtain ⟨h1, h2, h3⟩ := ih
    cases a with
    | ctor =>
      simp only [Construct.step] at hs
      split at hs <;> cases hs <;> rename_i h <;> rw [h] at h1
      · exact ⟨fun a ha => h1 a (List.mem_cons_of_mem _ ha), h2, h3⟩
      · exact ⟨fun a ha => h1 a (List.mem_cons_of_mem _ ha), h2, h3⟩
      · refine ⟨fun a ha => h1 a (List.mem_cons_of_mem _ ha), fun t ht => ?_, h3⟩
        rcases List.mem_cons.mp ht with rfl | ht
        · exact h1 _ List.mem_cons_self
        · exact h2 t ht
      · exact ⟨fun a ha => h1 a (List.mem_cons_of_mem _ ha), h2, h3⟩
    | enter k t =>
      simp only [Construct.step] at hs
      split at hs
      · next hop =>
        have : ∀ t' l', (t', l') ∈ (t, s.level) :: s.calls → CAct.opened t' ∈ prog := by
          intro t' l' h
          rcases List.mem_cons.mp h with h | h
          · simp only [Prod.mk.injEq] at h; exact h.1 ▸ h2 t hop.1
          · exact h3 t' l' h
        split at hs
        · split at hs <;> cases hs; exact ⟨h1, h2, this⟩
        · cases hs; exact ⟨h1, h2, this⟩
      · cases hs
    | tuse k m =>
      simp only [Construct.step] at hs
      split at hs
      · split at hs <;> cases hs; exact ⟨h1, h2, h3⟩
      · cases hs
    | leave k =>
      simp only [Construct.step] at hs
      split at hs <;> cases hs
      exact ⟨h1, h2, h3⟩

/-! ### The classes -/

/-- The single-threaded callback handler, the subscribers of event loop and data multiplexer, and both constructors of the ZMQ environment are sound. -/
theorem C94_sound_classes : Sound callbackCls callbackHandler ∧ Sound eventLoopSubscriberCls eventLoopSubscriber ∧
    Sound dataMuxSubscriberCls dataMuxSubscriber ∧ Sound zmqEnvCls zmqEnvFile ∧ Sound zmqEnvCls zmqEnvAround ∧ Sound managedCls (managedService false) :=
  ⟨C94_check_sound (by decide), C94_check_sound (by decide), C94_check_sound (by decide), C94_check_sound (by decide), C94_check_sound (by decide),
   C94_check_sound (by decide)⟩

/-- Violation: the callback handler with a mutex and the managed service with a subscriber are not. -/
theorem C94_violation_derived_classes : ¬ Sound multiCls multiHandler ∧ ¬ Sound managedCls (managedService true) :=
  ⟨C94_check_complete (by decide), C94_check_complete (by decide)⟩

/-- Violation: a reply arrives when the functions of the derived handler are in place and its mutex is not: the mutex is used before its construction. -/
theorem C94_violation_mutex_not_constructed :
    (run multiCls (.start multiHandler) (List.replicate 8 .ctor ++ [.enter 0 .reply, .tuse 0 .mutex])).map (fun s => (s.bad, s.level, s.rest)) =
      some (true, 1, [.init .mutex, .opened .user]) := by decide +kernel

/-- Violation: a reply that arrives a moment earlier runs the function of the base class, without the mutex; it is still at the stored requests when the
constructor has finished and the program makes its first request, under the mutex: two threads at the same vector, and nothing undefined was needed. -/
theorem C94_violation_not_serial :
    (run multiCls (.start multiHandler) (List.replicate 7 .ctor ++ [.enter 0 .reply] ++ List.replicate 3 .ctor ++
      [.enter 1 .user, .tuse 1 .mutex, .tuse 1 .requests, .tuse 0 .requests])).map (fun s => (s.bad, s.rest, s.owner, decide (s.pc 0 = some (.reply, 0)), decide (s.pc 1 = some (.user, 1)))) =
      some (false, [], some 1, true, true) := by decide +kernel

/-- Violation: a system event that arrives before the constructor of the base class has returned calls a pure virtual function; one that arrives a moment
later runs the functions of a service whose members do not exist yet. -/
theorem C94_violation_managed_service :
    (run managedCls (.start (managedService true)) [.ctor, .ctor, .enter 0 .status, .tuse 0 .pure]).map (fun s => (s.bad, s.level)) = some (true, 0) ∧
    (run managedCls (.start (managedService true)) [.ctor, .ctor, .ctor, .enter 0 .status, .tuse 0 .derived]).map (fun s => (s.bad, s.level, s.rest)) =
      some (true, 1, [.init .derived, .opened .user]) := by decide +kernel

/-- **C94** for these two: sound as long as no call arrives before the constructor has finished; then the handler with a mutex runs one call at a time.
Missing: calls during the construction (`C94_violation_*`). -/
theorem C94_undisturbed_partial {s : St} :
    (Reach multiCls Undisturbed (.start multiHandler) s → s.bad = false ∧ (∀ t l, (t, l) ∈ s.calls → l = 1) ∧
      ∀ k k', s.pc k ≠ none → s.pc k' ≠ none → k = k') ∧
    (Reach managedCls Undisturbed (.start (managedService true)) s → s.bad = false ∧ ∀ t l, (t, l) ∈ s.calls → l = 1) := by
  constructor
  · intro h
    have hu := undisturbed (c := multiCls) (prog := multiHandler) (by decide) (by intro t; cases t <;> decide) h
    refine ⟨hu.1, hu.2, fun k k' hk hk' => C94_serial h ?_ hk hk'⟩
    intro t l hm
    have := hu.2 t l hm
    subst this
    have ho := (Reach.sources h).2.2 t _ hm
    cases t <;> first | rfl | exact absurd ho (by decide)
  · exact undisturbed (c := managedCls) (prog := managedService true) (by decide) (by intro t; cases t <;> decide)

/-- Moving the registration to the end of the derived constructor would make both sound. -/
theorem C94_example_fixed :
    Sound multiCls [.init .publisher, .init .subscriber, .init .correlation, .init .name, .init .requests, .level, .init .mutex, .use .subscriber,
      .opened .reply, .opened .user] ∧
    Sound managedCls [.init .service, .level, .init .derived, .opened .status, .opened .user] :=
  ⟨C94_check_sound (by decide), C94_check_sound (by decide)⟩

/-- A non-trivial case: the event loop calls the listener before the constructor has stored its id, and again when the program has the object. -/
theorem C94_example :
    (run eventLoopSubscriberCls (.start eventLoopSubscriber) (List.replicate 9 .ctor ++ [.enter 0 .emission, .tuse 0 .emitter, .ctor, .ctor, .enter 1 .user,
      .tuse 1 .listenerId, .leave 0, .enter 2 .emission])).map (fun s => (s.bad, s.calls, s.rest)) =
      some (false, [(.emission, 1), (.user, 1), (.emission, 1)], []) := by decide +kernel

/-- The classes without a mutex: a call of the program is in progress on one thread while a reply, or a second system message, is handled on another. -/
theorem C94_unlocked_overlap_example :
    (run callbackCls (.start callbackHandler) (List.replicate callbackHandler.length .ctor ++ [.enter 0 .user, .enter 1 .reply, .tuse 0 .requests, .tuse 1 .requests])).map
      (fun s => decide (s.rest = [] ∧ s.pc 0 = some (.user, 0) ∧ s.pc 1 = some (.reply, 0) ∧ s.owner = none ∧ s.bad = false)) = some true ∧
    (run managedCls (.start (managedService true)) (List.replicate 5 .ctor ++ [.enter 0 .status, .enter 1 .status, .tuse 0 .derived, .tuse 1 .derived])).map
      (fun s => decide (s.rest = [] ∧ s.pc 0 = some (.status, 1) ∧ s.pc 1 = some (.status, 1) ∧ s.owner = none ∧ s.bad = false)) = some true := by decide +kernel

/-- With the mutex of `MultiThreadCallbackHandler` the same calls wait for each other once the object is complete. -/
theorem C94_locked_overlap_example :
    (run multiCls (.start multiHandler) (List.replicate multiHandler.length .ctor ++ [.enter 0 .user])).isSome = true ∧
    (run multiCls (.start multiHandler) (List.replicate multiHandler.length .ctor ++ [.enter 0 .user, .enter 1 .reply])).isSome = false ∧
    (run multiCls (.start multiHandler) (List.replicate multiHandler.length .ctor ++ [.enter 0 .user, .leave 0, .enter 1 .reply])).isSome = true := by decide +kernel

end Verif.Construct
