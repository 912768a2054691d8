import Verif.Spec.RaStack
import Verif.Lemmas.LockFreeStack
import Verif.Lemmas.Memory

/-! Invariant of the stack on weak memory (C67). -/

namespace Verif.RaStack
open Verif Verif.RA Verif.LFS

variable {α : Type}

/-! ### encoding -/

theorem dec_enc (h : Head) (hi : h.idx < 65536) : dec (enc h) = h := by
  obtain ⟨a, i⟩ := h
  simp only [dec, enc] at *
  have h1 : ((a : Int) * 65536 + i) / 65536 = a := by omega
  have h2 : ((a : Int) * 65536 + i) % 65536 = i := by omega
  rw [h1, h2]; simp

theorem dec_idx_lt (x : Int) : (dec x).idx < 65536 := by simp only [dec]; omega

theorem hv_ne_lv (w : Which) (i : Nat) : hv w ≠ lv i := by cases w <;> simp only [hv, lv] <;> omega
theorem lv_ne_hv (w : Which) (i : Nat) : lv i ≠ hv w := (hv_ne_lv w i).symm
theorem hv_inj {w w' : Which} (h : hv w = hv w') : w = w' := by cases w <;> cases w' <;> simp_all [hv]
theorem lv_inj {i j : Nat} (h : lv i = lv j) : i = j := by simp only [lv] at h; omega

/-! ### replay -/

theorem Replays.snoc_put {l l' : List α} {us : List (Upd α)} (h : Replays l us l') (t : Nat) (v : α) :
    Replays l (us ++ [⟨true, t, v⟩]) (v :: l') := by
  induction h with
  | nil l => exact .put t v (.nil _)
  | put t' v' _ ih => exact .put t' v' ih
  | take t' v' _ ih => exact .take t' v' ih

theorem Replays.snoc_take {l l' : List α} {us : List (Upd α)} {v : α} (h : Replays l us (v :: l')) (t : Nat) :
    Replays l (us ++ [⟨false, t, v⟩]) l' := by
  generalize e : v :: l' = m at h
  induction h with
  | nil l => subst e; exact .take t v (.nil _)
  | put t' v' _ ih => exact .put t' v' (ih e)
  | take t' v' _ ih => exact .take t' v' (ih e)

/-! ### the state without the memory -/

/-- The newest value of a variable. -/
def newest (m : Mem α) (l : Nat) : Int := (m.last l).elim 0 Msg.val

/-- The state of Model/LockFreeStack.lean made of the newest values. -/
def proj (d : Nat → α) (s : St α) : LFS.State α where
  nxt := fun i => (newest s.mem (lv i) % 65536).toNat
  data := fun i => ((s.mem.writes i).head?).getD (d i)
  hd := fun w => dec (newest s.mem (hv w))
  ver := fun w => (s.mem.msgs (hv w)).length - 1
  pc := s.pc

/-- All accesses to node `x` are known in the view. -/
def Knows (m : Mem α) (u : View) (x : Nat) : Prop :=
  (m.msgs (lv x)).length ≤ u.a (lv x) + 1 ∧ (m.writes x).length ≤ u.w x ∧ ∀ t, m.reads x t ≤ u.r x t

def vle (u v : View) : Prop := (∀ l, u.a l ≤ v.a l) ∧ (∀ x, u.w x ≤ v.w x) ∧ ∀ x t, u.r x t ≤ v.r x t

theorem vle.refl (u : View) : vle u u := ⟨fun _ => Nat.le_refl _, fun _ => Nat.le_refl _, fun _ _ => Nat.le_refl _⟩
theorem vle_see (u : View) (l i : Nat) : vle u (u.see l i) :=
  ⟨fun l' => View.see_a_le u l i l', fun _ => Nat.le_refl _, fun _ _ => Nat.le_refl _⟩
theorem vle_joinL (u v : View) : vle u (u.join v) := ⟨fun _ => Nat.le_max_left _ _, fun _ => Nat.le_max_left _ _, fun _ _ => Nat.le_max_left _ _⟩
theorem vle_joinR (u v : View) : vle v (u.join v) := ⟨fun _ => Nat.le_max_right _ _, fun _ => Nat.le_max_right _ _, fun _ _ => Nat.le_max_right _ _⟩
theorem vle.trans {u v w : View} (h : vle u v) (h' : vle v w) : vle u w :=
  ⟨fun l => Nat.le_trans (h.1 l) (h'.1 l), fun l => Nat.le_trans (h.2.1 l) (h'.2.1 l), fun l t => Nat.le_trans (h.2.2 l t) (h'.2.2 l t)⟩

theorem Knows.mono {m : Mem α} {u v : View} {x : Nat} (h : Knows m u x) (hv : vle u v) : Knows m v x :=
  ⟨Nat.le_trans h.1 (Nat.add_le_add_right (hv.1 _) 1), Nat.le_trans h.2.1 (hv.2.1 _), fun t => Nat.le_trans (h.2.2 t) (hv.2.2 _ t)⟩

/-- What a thread remembers of a head it loaded. -/
def Loc (s : St α) (t : Nat) : Prop := match s.pc t with
  | .loaded c orig j => s.known t ≤ (s.mem.view t).a (hv c.src) ∧ s.known t ≤ j ∧ ∃ g, (s.mem.msgs (hv c.src))[j]? = some g ∧ dec g.val = orig
  | .linkRead c orig j n => s.known t ≤ (s.mem.view t).a (hv c.src) ∧ n < 65536 ∧ ∃ g, (s.mem.msgs (hv c.src))[j]? = some g ∧ dec g.val = orig
  | .pLoaded _ _ _ orig => orig.idx < 65536
  | .start c => s.known t ≤ (s.mem.view t).a (hv c.src)
  | _ => True

structure Inv (cap : Nat) (d : Nat → α) (s : St α) (L : Which → List Nat) (hl : List (Nat × Nat)) : Prop where
  base : LFS.Inv (min cap 65535) (proj d s) L hl
  ne : ∀ l, s.mem.msgs l ≠ []
  wne : ∀ x, s.mem.writes x ≠ []
  own : ∀ t i, (s.pc t).cell = some i → Knows s.mem (s.mem.view t) i
  inl : ∀ w x, x ∈ L w → ∀ g, s.mem.last (hv w) = some g → Knows s.mem g.view x
  tags : ∀ w j g, (s.mem.msgs (hv w))[j]? = some g → (dec g.val).aba = j % TAGS
  loc : ∀ t, Loc s t
  rep : ∀ w, Replays (start cap d w) (s.log w) ((L w).map (proj d s).data)
  emp : ∀ w j g, (s.mem.msgs (hv w))[j]? = some g → (dec g.val).idx = UNDEF → Replays (start cap d w) ((s.log w).take j) []
  len : ∀ w, (s.log w).length + 1 = (s.mem.msgs (hv w)).length
  tk : ∀ t, takes t (s.log .head) = popResults (s.rets t) ++ pending s t
  pt : ∀ t, puts t (s.log .head) = pushResults (s.rets t)

theorem last_ex {m : Mem α} {l : Nat} (h : m.msgs l ≠ []) : ∃ g, m.last l = some g ∧ (m.msgs l)[(m.msgs l).length - 1]? = some g := by
  have hg : m.last l = some _ := List.getLast?_eq_some_getLast h
  exact ⟨_, hg, by rw [← List.getLast?_eq_getElem?]; exact hg⟩

theorem init_inv (cap : Nat) (hcap : 1 ≤ cap) (d : Nat → α) : Inv cap d (.init cap d) (initL (min cap 65535)) [] := by
  have hproj : proj d (.init cap d) = LFS.init cap d := by
    simp only [proj, LFS.init, St.init]
    congr 1
    · funext i
      simp only [newest, Mem.last, lv]
      show ((if i + 1 < cap then (((i + 1) % 65536 : Nat) : Int) else (UNDEF : Nat)) % 65536).toNat = _
      split
      · omega
      · simp [UNDEF]
    · funext w
      cases w
      · show dec (enc ⟨0, 0⟩) = _
        exact dec_enc _ (by decide)
      · show dec (enc ⟨0, UNDEF⟩) = _
        exact dec_enc _ (by decide)
    · funext w; cases w <;> rfl
  refine ⟨?_, ?_, ?_, ?_, ?_, ?_, ?_, ?_, ?_, ?_, ?_, ?_⟩
  · rw [hproj]; exact (sim_init cap hcap d).inv
  · intro l; rcases l with _ | _ | l <;> simp [St.init]
  · intro x; simp [St.init]
  · intro t i hi; simp [St.init, PC.cell] at hi
  · intro w x _ g hg
    have : g.view = .start := by
      cases w <;> simp [St.init, Mem.last, hv] at hg <;> rw [← hg]
    rw [this]
    refine ⟨?_, ?_, ?_⟩ <;> simp [St.init, lv, View.start]
  · intro w j g hg
    cases w <;> simp only [St.init, hv] at hg
    · match j, hg with
      | 0, hg => simp at hg; subst hg; rfl
    · match j, hg with
      | 0, hg => simp at hg; subst hg; rfl
  · intro t; simp [Loc, St.init]
  · intro w
    rw [hproj]
    cases w
    · simp only [start, initL, St.init, LFS.init]; exact .nil _
    · simp only [start, initL, St.init]; exact .nil _
  · intro w j g hg hu
    cases w <;> simp only [St.init, hv] at hg
    · match j, hg with
      | 0, hg => simp at hg; subst hg; exact absurd hu (by decide)
    · match j, hg with
      | 0, hg => exact .nil _
  · intro w; cases w <;> rfl
  · intro t; rfl
  · intro t; rfl

/-! ### steps -/

variable {cap : Nat} {d : Nat → α} {s : St α} {L : Which → List Nat} {hl : List (Nat × Nat)} {t : Nat}

/-- `ver` is the newest: facts for `Local`. -/
theorem loc_of {w : Which} {j : Nat} {g : Msg} (hi : Inv cap d s L hl) (hg : (s.mem.msgs (hv w))[j]? = some g) :
    j ≤ (proj d s).ver w ∧ (dec g.val).aba = j % TAGS ∧ (j = (proj d s).ver w → (proj d s).hd w = dec g.val) := by
  have hlt : j < (s.mem.msgs (hv w)).length := by
    by_contra h
    rw [List.getElem?_eq_none (by omega)] at hg; cases hg
  refine ⟨by simp only [proj]; omega, hi.tags w j g hg, ?_⟩
  intro hj
  simp only [proj] at hj ⊢
  obtain ⟨g', h1, h2⟩ := last_ex (hi.ne (hv w))
  rw [← hj, hg] at h2
  cases h2
  simp [newest, h1]

/-- A step that changes only the view (upwards) and the program counter of `t`, not the node it owns. -/
theorem inv_local (hi : Inv cap d s L hl) {u : View} (hu : vle (s.mem.view t) u) (p : PC α) (hcell : p.cell = (s.pc t).cell)
    (hloc : LFS.Local { proj d s with pc := upd s.pc t p } t)
    {k : Nat} {rs : List (Call α × Res α)}
    (hloc' : Loc { s with mem := { s.mem with view := upd s.mem.view t u }, pc := upd s.pc t p, known := upd s.known t k, rets := upd s.rets t rs } t)
    (hpop : popResults rs ++ pending { s with pc := upd s.pc t p } t = popResults (s.rets t) ++ pending s t)
    (hpush : pushResults rs = pushResults (s.rets t)) :
    Inv cap d { s with mem := { s.mem with view := upd s.mem.view t u }, pc := upd s.pc t p, known := upd s.known t k, rets := upd s.rets t rs } L hl := by
  refine ⟨inv_pc hi.base p hcell hloc, hi.ne, hi.wne, ?_, hi.inl, hi.tags, ?_, hi.rep, hi.emp, hi.len, ?_, ?_⟩
  · intro v i hv
    by_cases e : v = t
    · subst e
      have h1 : p.cell = some i := by simpa using hv
      have := (hi.own v i (hcell ▸ h1)).mono hu
      show Knows _ (upd _ _ _ _) i
      rw [upd_same]; exact this
    · have h1 : (s.pc v).cell = some i := by simpa [e] using hv
      have := hi.own v i h1
      show Knows _ (upd _ _ _ _) i
      rw [upd_other _ _ e]; exact this
  · intro v
    by_cases e : v = t
    · subst e; exact hloc'
    · have := hi.loc v
      simpa [Loc, e] using this
  · intro v
    by_cases e : v = t
    · subst e
      show takes v (s.log .head) = popResults (upd _ _ _ _) ++ _
      rw [upd_same, hi.tk v, ← hpop]
      rfl
    · show takes v (s.log .head) = popResults (upd _ _ _ _) ++ _
      rw [upd_other _ _ e, hi.tk v]
      simp [pending, e]
  · intro v
    by_cases e : v = t
    · subst e
      show puts v (s.log .head) = pushResults (upd _ _ _ _)
      rw [upd_same, hi.pt v, hpush]
    · show puts v (s.log .head) = pushResults (upd _ _ _ _)
      rw [upd_other _ _ e, hi.pt v]

theorem upd_self {β : Type} (f : Nat → β) (a : Nat) : upd f a (f a) = f := by
  funext b; by_cases h : b = a
  · subst h; simp
  · simp [h]

theorem loadRlx_some {m m' : Mem α} {t l i : Nat} {q : Int} (h : m.loadRlx t l i = some (q, m')) :
    ∃ g, (m.msgs l)[i]? = some g ∧ g.val = q ∧ (m.view t).a l ≤ i ∧ m' = { m with view := upd m.view t ((m.view t).see l i) } := by
  unfold Mem.loadRlx at h
  split at h
  · next hi =>
    split at h
    · next g hg => cases h; exact ⟨g, hg, rfl, hi, rfl⟩
    · cases h
  · cases h

theorem rmw_some {m m' : Mem α} {t l : Nat} {f : Int → Int} {q : Int} (h : m.rmw t l f = some (q, m')) :
    ∃ g, m.last l = some g ∧ g.val = q ∧
      m' = { m with msgs := upd m.msgs l (m.msgs l ++ [⟨f g.val, ((m.view t).join g.view).see l (m.msgs l).length⟩]),
                    view := upd m.view t (((m.view t).join g.view).see l (m.msgs l).length) } := by
  unfold Mem.rmw at h
  split at h
  · next g hg => cases h; exact ⟨g, hg, rfl, rfl⟩
  · cases h

/-- Loading a head in `_pop`. -/
theorem inv_loaded (hi : Inv cap d s L hl) {u : View} (hu : vle (s.mem.view t) u) {c : Call α} {j : Nat} {g : Msg}
    (hcell : (s.pc t).cell = none) (hpend : pending s t = [])
    (hk0 : s.known t ≤ (s.mem.view t).a (hv c.src)) (hk : s.known t ≤ j) (hg : (s.mem.msgs (hv c.src))[j]? = some g) :
    Inv cap d { s with mem := { s.mem with view := upd s.mem.view t u }, pc := upd s.pc t (.loaded c (dec g.val) j) } L hl := by
  have := inv_local hi hu (.loaded c (dec g.val) j) (by rw [hcell]; rfl) (by simpa [LFS.Local] using loc_of hi hg)
    (k := s.known t) (rs := s.rets t) (by simpa [Loc] using ⟨Nat.le_trans hk0 (hu.1 _), hk, g, hg, rfl⟩) (by rw [hpend]; simp [pending]) rfl
  rwa [upd_self, upd_self] at this

/-- Loading a head in `_push`. -/
theorem inv_pLoaded (hi : Inv cap d s L hl) {u : View} (hu : vle (s.mem.view t) u) {c : Call α} {i : Nat} {v : α} {x : Int}
    (hp : s.pc t = .filled c i v ∨ ∃ o, s.pc t = .pLinked c i v o) :
    Inv cap d { s with mem := { s.mem with view := upd s.mem.view t u }, pc := upd s.pc t (.pLoaded c i v (dec x)) } L hl := by
  have hl' := hi.base.loc t
  have := inv_local hi hu (.pLoaded c i v (dec x)) (by rcases hp with h | ⟨o, h⟩ <;> rw [h] <;> rfl)
    (by
      rcases hp with h | ⟨o, h⟩
      · simp only [LFS.Local, proj, h] at hl'
        cases c <;> simpa [LFS.Local, valOK, proj] using hl'
      · simp only [LFS.Local, proj, h] at hl'
        cases c <;> simpa [LFS.Local, valOK, proj] using hl'.1)
    (k := s.known t) (rs := s.rets t) (by simpa [Loc] using dec_idx_lt x)
    (by rcases hp with h | ⟨o, h⟩ <;> cases c <;> simp [pending, h]) rfl
  rwa [upd_self, upd_self] at this

theorem simOf {cap : Nat} {s : LFS.State α} (h : LFS.Inv cap s L hl) : Sim cap s ⟨(L .head).map s.data, fun t => (s.pc t).status s⟩ L hl :=
  ⟨h, rfl, fun _ => rfl⟩

theorem cell_proj (t : Nat) : ((proj d s).pc t) = s.pc t := rfl

/-- The write of the element. -/
theorem inv_write (hi : Inv cap d s L hl) {x : α} {i : Nat} (hp : s.pc t = .holds (.push x) i) :
    Inv cap d { s with mem := s.mem.write t i x, pc := upd s.pc t (.filled (.push x) i x) } L hl := by
  have hcell : (s.pc t).cell = some i := by rw [hp]; rfl
  have hproj : proj d { s with mem := s.mem.write t i x, pc := upd s.pc t (.filled (.push x) i x) } =
      { proj d s with data := upd (proj d s).data i x, pc := upd s.pc t (.filled (.push x) i x) } := by
    simp only [proj, Mem.write]
    congr 1
    funext j
    simp only [upd_apply]
    split
    · next e => subst e; rfl
    · rfl
  have hne : ∀ u j, u ≠ t → (s.pc u).cell = some j → j ≠ i := by
    intro u j hu hj e
    subst e
    exact hu (hi.base.cell_inj (s := proj d s) hj hcell)
  have hwr : ∀ j, j ≠ i → (s.mem.write t i x).writes j = s.mem.writes j := fun j hj => by simp [Mem.write, hj]
  have hvw : ∀ u, u ≠ t → (s.mem.write t i x).view u = s.mem.view u := fun u hu => by simp [Mem.write, hu]
  refine ⟨by rw [hproj]; exact (sim_write (simOf hi.base) x i hp).inv, hi.ne, ?_, ?_, ?_, hi.tags, ?_, ?_, hi.emp, hi.len, ?_, hi.pt⟩
  · intro j
    by_cases e : j = i
    · subst e; simp [Mem.write]
    · show (s.mem.write t i x).writes j ≠ []
      rw [hwr j e]; exact hi.wne j
  · intro u j hj
    by_cases e : u = t
    · subst e
      have hj : j = i := by simpa [PC.cell, eq_comm] using hj
      subst hj
      have h := hi.own u j hcell
      refine ⟨?_, ?_, ?_⟩
      · simpa [Mem.write] using h.1
      · simp [Mem.write]
      · simpa [Mem.write] using h.2.2
    · have hj : (s.pc u).cell = some j := by simpa [e] using hj
      have h := hi.own u j hj
      refine ⟨?_, ?_, ?_⟩
      · show _ ≤ ((s.mem.write t i x).view u).a (lv j) + 1
        rw [hvw u e]; exact h.1
      · show ((s.mem.write t i x).writes j).length ≤ ((s.mem.write t i x).view u).w j
        rw [hvw u e, hwr j (hne u j e hj)]; exact h.2.1
      · show ∀ v, _ ≤ ((s.mem.write t i x).view u).r j v
        rw [hvw u e]; exact h.2.2
  · intro w j hj g hg
    have h := hi.inl w j hj g hg
    refine ⟨h.1, ?_, h.2.2⟩
    show ((s.mem.write t i x).writes j).length ≤ _
    rw [hwr j (fun e => hi.base.cell_not_mem (s := proj d s) hcell w (e ▸ hj))]
    exact h.2.1
  · intro u
    by_cases e : u = t
    · subst e; simp [Loc]
    · have := hi.loc u
      simp only [Loc, upd_other _ _ e] at this ⊢
      cases hpu : s.pc u <;> simp only [hpu] at this ⊢ <;> first | exact this | (rw [hvw u e]; exact this)
  · intro w
    have h := hi.rep w
    rw [hproj]
    have e : (L w).map (upd (proj d s).data i x) = (L w).map (proj d s).data := by
      apply List.map_congr_left
      intro j hj
      exact upd_other _ _ (fun e => hi.base.cell_not_mem (s := proj d s) hcell w (e ▸ hj))
    show Replays _ _ ((L w).map (upd (proj d s).data i x))
    rw [e]; exact h
  · intro u
    rw [show takes u (s.log .head) = _ from hi.tk u]
    congr 1
    by_cases e : u = t
    · subst e; simp [pending, hp]
    · simp only [pending, upd_other _ _ e]
      cases hpu : s.pc u with
      | holds c j =>
        cases c with
        | push y => rfl
        | pop =>
          show _ = (((s.mem.write t i x).writes j).head?).toList
          rw [hwr j (hne u j e (by rw [hpu]; rfl))]
      | filled c j v => cases c <;> rfl
      | pLoaded c j v o => cases c <;> rfl
      | pLinked c j v o => cases c <;> rfl
      | _ => rfl

/-- The read of the element. -/
theorem inv_read (hi : Inv cap d s L hl) {m : Mem α} {v : α} {i : Nat} (hp : s.pc t = .holds .pop i) (hr : s.mem.read t i = some (v, m)) :
    Inv cap d { s with mem := m, pc := upd s.pc t (.filled .pop i v) } L hl := by
  have hcell : (s.pc t).cell = some i := by rw [hp]; rfl
  obtain ⟨hv, rfl⟩ := Mem.read_some hr
  have hne : ∀ u j, u ≠ t → (s.pc u).cell = some j → j ≠ i := by
    intro u j hu hj e
    subst e
    exact hu (hi.base.cell_inj (s := proj d s) hj hcell)
  refine ⟨inv_pc hi.base (.filled .pop i v) (by rw [cell_proj, hp]; rfl) (by simp [LFS.Local, valOK]), hi.ne, hi.wne, ?_, ?_, hi.tags, ?_,
    hi.rep, hi.emp, hi.len, ?_, hi.pt⟩
  · intro u j hj
    by_cases e : u = t
    · subst e
      have hj : j = i := by simpa [PC.cell, eq_comm] using hj
      subst hj
      have h := hi.own u j hcell
      refine ⟨?_, ?_, ?_⟩
      · simpa using h.1
      · simpa using h.2.1
      · intro w
        simp only [upd_same]
        by_cases ew : w = u
        · subst ew; simp
        · simp only [upd_other _ _ ew]; exact h.2.2 w
    · have hj : (s.pc u).cell = some j := by simpa [e] using hj
      have h := hi.own u j hj
      have hji := hne u j e hj
      refine ⟨?_, ?_, ?_⟩
      · simpa [e] using h.1
      · simpa [e] using h.2.1
      · simpa [e, hji] using h.2.2
  · intro w j hj g hg
    have h := hi.inl w j hj g hg
    refine ⟨h.1, h.2.1, ?_⟩
    have hji : j ≠ i := fun e => hi.base.cell_not_mem (s := proj d s) hcell w (e ▸ hj)
    simpa [hji] using h.2.2
  · intro u
    by_cases e : u = t
    · subst e; simp [Loc]
    · have := hi.loc u
      simpa [Loc, e] using this
  · intro u
    rw [show takes u (s.log .head) = _ from hi.tk u]
    congr 1
    by_cases e : u = t
    · subst e; simp [pending, hp, hv]
    · simp [pending, e]

theorem msgs_storeRlx (m : Mem α) (t l : Nat) (x : Int) (l' : Nat) (h : l' ≠ l) : (m.storeRlx t l x).msgs l' = m.msgs l' := by
  simp [Mem.storeRlx, h]

/-- The write of the link. -/
theorem inv_setLink (hi : Inv cap d s L hl) {c : Call α} {i : Nat} {v : α} {orig : Head} (hp : s.pc t = .pLoaded c i v orig) :
    Inv cap d { s with mem := s.mem.storeRlx t (lv i) orig.idx, pc := upd s.pc t (.pLinked c i v orig) } L hl := by
  have hcell : (s.pc t).cell = some i := by rw [hp]; rfl
  have hsm : orig.idx < 65536 := by have := hi.loc t; simpa [Loc, hp] using this
  have hhv : ∀ w, (s.mem.storeRlx t (lv i) orig.idx).msgs (hv w) = s.mem.msgs (hv w) := fun w => msgs_storeRlx _ _ _ _ _ (hv_ne_lv w i)
  have hlv : ∀ j, j ≠ i → (s.mem.storeRlx t (lv i) orig.idx).msgs (lv j) = s.mem.msgs (lv j) :=
    fun j hj => msgs_storeRlx _ _ _ _ _ (fun e => hj (lv_inj e))
  have hlast : ∀ w, (s.mem.storeRlx t (lv i) orig.idx).last (hv w) = s.mem.last (hv w) := fun w => by simp only [Mem.last, hhv]
  have hproj : proj d { s with mem := s.mem.storeRlx t (lv i) orig.idx, pc := upd s.pc t (.pLinked c i v orig) } =
      { proj d s with nxt := upd (proj d s).nxt i orig.idx, pc := upd s.pc t (.pLinked c i v orig) } := by
    simp only [proj]
    congr 1
    · funext j
      by_cases e : j = i
      · subst e
        rw [upd_same]
        simp only [newest, Mem.last, Mem.storeRlx, upd_same, List.getLast?_append, List.getLast?_singleton, Option.some_or, Option.elim]
        omega
      · rw [upd_other _ _ e]
        simp only [newest, Mem.last, hlv j e]
    · funext w
      simp only [newest, hlast]
    · funext w
      rw [hhv]
  have hne : ∀ u j, u ≠ t → (s.pc u).cell = some j → j ≠ i := by
    intro u j hu hj e
    subst e
    exact hu (hi.base.cell_inj (s := proj d s) hj hcell)
  have hvw : ∀ u, u ≠ t → (s.mem.storeRlx t (lv i) orig.idx).view u = s.mem.view u := fun u hu => by simp [Mem.storeRlx, hu]
  refine ⟨by rw [hproj]; exact (sim_link (simOf hi.base) c v orig i hp).inv, ?_, hi.wne, ?_, ?_, ?_, ?_, ?_, ?_, ?_, ?_, hi.pt⟩
  · intro l
    show (s.mem.storeRlx t (lv i) orig.idx).msgs l ≠ []
    by_cases e : l = lv i
    · subst e; simp [Mem.storeRlx]
    · rw [msgs_storeRlx _ _ _ _ _ e]; exact hi.ne l
  · intro u j hj
    by_cases e : u = t
    · subst e
      have hj : j = i := by simpa [PC.cell, eq_comm] using hj
      subst hj
      have h := hi.own u j hcell
      refine ⟨?_, ?_, ?_⟩
      · simp only [Mem.storeRlx, upd_same, View.see_a_same, List.length_append, List.length_singleton]
        omega
      · simpa [Mem.storeRlx] using h.2.1
      · simpa [Mem.storeRlx] using h.2.2
    · have hj : (s.pc u).cell = some j := by simpa [e] using hj
      have h := hi.own u j hj
      refine ⟨?_, ?_, ?_⟩
      · show ((s.mem.storeRlx t (lv i) orig.idx).msgs (lv j)).length ≤ ((s.mem.storeRlx t (lv i) orig.idx).view u).a (lv j) + 1
        rw [hvw u e, hlv j (hne u j e hj)]; exact h.1
      · show _ ≤ ((s.mem.storeRlx t (lv i) orig.idx).view u).w j
        rw [hvw u e]; exact h.2.1
      · show ∀ v, _ ≤ ((s.mem.storeRlx t (lv i) orig.idx).view u).r j v
        rw [hvw u e]; exact h.2.2
  · intro w j hj g hg
    have h := hi.inl w j hj g (by rw [← hlast]; exact hg)
    refine ⟨?_, h.2⟩
    show ((s.mem.storeRlx t (lv i) orig.idx).msgs (lv j)).length ≤ _
    rw [hlv j (fun e => hi.base.cell_not_mem (s := proj d s) hcell w (e ▸ hj))]
    exact h.1
  · intro w j g hg
    exact hi.tags w j g (by rw [← hhv w]; exact hg)
  · intro u
    by_cases e : u = t
    · subst e; simp [Loc]
    · have := hi.loc u
      simp only [Loc, upd_other _ _ e] at this ⊢
      cases hpu : s.pc u with
      | start c =>
        simp only [hpu] at this ⊢
        show _ ≤ ((s.mem.storeRlx t (lv i) orig.idx).view u).a _
        rw [hvw u e]; exact this
      | loaded c o j => simp only [hpu] at this ⊢; rw [hhv, hvw u e]; exact this
      | linkRead c o j n => simp only [hpu] at this ⊢; rw [hhv, hvw u e]; exact this
      | pLoaded c i v o => simp only [hpu] at this ⊢; exact this
      | _ => trivial
  · intro w
    rw [hproj]; exact hi.rep w
  · intro w j g hg
    exact hi.emp w j g (by rw [← hhv w]; exact hg)
  · intro w
    show _ = ((s.mem.storeRlx t (lv i) orig.idx).msgs (hv w)).length
    rw [hhv]; exact hi.len w
  · intro u
    rw [show takes u (s.log .head) = _ from hi.tk u]
    congr 1
    by_cases e : u = t
    · subst e; cases c <;> simp [pending, hp]
    · simp [pending, e, Mem.storeRlx]

/-- The view of the thread and of the message after a successful compare-and-swap. -/
def casView (m : Mem α) (t : Nat) (w : Which) (g : Msg) : View := ((m.view t).join g.view).see (hv w) (m.msgs (hv w)).length

/-- The memory after a successful compare-and-swap. -/
def casMem (m : Mem α) (t : Nat) (w : Which) (g : Msg) (h : Head) : Mem α :=
  { m with msgs := upd m.msgs (hv w) (m.msgs (hv w) ++ [⟨enc h, casView m t w g⟩]), view := upd m.view t (casView m t w g) }

theorem cas_lv (m : Mem α) (w : Which) (g : Msg) (h : Head) (i : Nat) : (casMem m t w g h).msgs (lv i) = m.msgs (lv i) := by
  simp only [casMem]; rw [upd_other _ _ (lv_ne_hv w i)]

theorem cas_hv_same (m : Mem α) (w : Which) (g : Msg) (h : Head) :
    (casMem m t w g h).msgs (hv w) = m.msgs (hv w) ++ [⟨enc h, casView m t w g⟩] := by simp only [casMem, upd_same]

theorem cas_hv_other (m : Mem α) (w : Which) (g : Msg) (h : Head) (w' : Which) (e : w' ≠ w) : (casMem m t w g h).msgs (hv w') = m.msgs (hv w') := by
  simp only [casMem]; rw [upd_other _ _ (fun h => e (hv_inj h))]

theorem cas_get (m : Mem α) (w : Which) (g : Msg) (h : Head) (w' : Which) {j : Nat} {g' : Msg} (hg : (m.msgs (hv w'))[j]? = some g') :
    ((casMem m t w g h).msgs (hv w'))[j]? = some g' := by
  by_cases e : w' = w
  · subst e
    rw [cas_hv_same, List.getElem?_append_left]
    · exact hg
    · by_contra hn
      rw [List.getElem?_eq_none (by omega)] at hg; cases hg
  · rw [cas_hv_other _ _ _ _ _ e]; exact hg

theorem cas_last_same (m : Mem α) (w : Which) (g : Msg) (h : Head) : (casMem m t w g h).last (hv w) = some ⟨enc h, casView m t w g⟩ := by
  simp [Mem.last, cas_hv_same]

theorem cas_last_other (m : Mem α) (w : Which) (g : Msg) (h : Head) (w' : Which) (e : w' ≠ w) : (casMem m t w g h).last (hv w') = m.last (hv w') := by
  simp only [Mem.last, cas_hv_other _ _ _ _ _ e]

theorem cas_le (m : Mem α) (w : Which) (g : Msg) : vle (m.view t) (casView m t w g) := (vle_joinL _ _).trans (vle_see _ _ _)
theorem cas_le' (m : Mem α) (w : Which) (g : Msg) : vle g.view (casView m t w g) := (vle_joinR _ _).trans (vle_see _ _ _)

theorem cas_view_le (m : Mem α) (w : Which) (g : Msg) (h : Head) (u : Nat) : vle (m.view u) ((casMem m t w g h).view u) := by
  by_cases e : u = t
  · subst e; simp only [casMem, upd_same]; exact cas_le m w g
  · simp only [casMem, upd_other _ _ e]; exact vle.refl _

theorem cas_knows {m : Mem α} {w : Which} {g : Msg} {h : Head} {u : View} {x : Nat} (hk : Knows m u x) : Knows (casMem m t w g h) u x := by
  refine ⟨?_, hk.2⟩
  rw [cas_lv]; exact hk.1

theorem proj_cas (hne : s.mem.msgs (hv w) ≠ []) (g : Msg) (h : Head) (hh : h.idx < 65536) (p : PC α) (e : Which → List (Upd α)) (rs : Nat → List (Call α × Res α)) (b : Bool) :
    proj d { s with mem := casMem s.mem t w g h, pc := upd s.pc t p, log := e, rets := rs, late := b } =
      { proj d s with hd := upd (proj d s).hd w h, ver := upd (proj d s).ver w ((proj d s).ver w + 1), pc := upd s.pc t p } := by
  simp only [proj]
  congr 1
  · funext j
    simp only [newest, Mem.last, cas_lv]
  · funext w'
    by_cases e : w' = w
    · subst e
      rw [upd_same]
      simp only [newest, cas_last_same, Option.elim]
      exact dec_enc h hh
    · rw [upd_other _ _ e]
      simp only [newest, cas_last_other _ _ _ _ _ e]
  · funext w'
    by_cases e : w' = w
    · subst e
      rw [upd_same, cas_hv_same]
      have : 0 < (s.mem.msgs (hv w')).length := List.length_pos_iff.mpr hne
      simp only [List.length_append, List.length_singleton]
      omega
    · rw [upd_other _ _ e, cas_hv_other _ _ _ _ _ e]

theorem replays_len {l l' : List α} {us : List (Upd α)} (h : Replays l us l') : Replays l (us.take us.length) l' := by
  rw [List.take_length]; exact h

/-- A successful compare-and-swap. -/
theorem inv_cas (hi : Inv cap d s L hl) {w : Which} {g : Msg} (hg : s.mem.last (hv w) = some g) {h : Head} (hh : h.idx < 65536)
    (haba : h.aba = ((dec g.val).aba + 1) % TAGS) {p : PC α} {l' : List Nat} {hl' : List (Nat × Nat)} {e : Upd α} {rs : List (Call α × Res α)} {b : Bool}
    (hbase : LFS.Inv (min cap 65535) { proj d s with hd := upd (proj d s).hd w h, ver := upd (proj d s).ver w ((proj d s).ver w + 1), pc := upd s.pc t p }
      (upd L w l') hl')
    (hown : ∀ i, p.cell = some i → Knows s.mem (casView s.mem t w g) i)
    (hin : ∀ x, x ∈ l' → Knows s.mem (casView s.mem t w g) x)
    (hloc : Loc { s with mem := casMem s.mem t w g h, pc := upd s.pc t p, log := upd s.log w (s.log w ++ [e]), rets := upd s.rets t rs, late := b } t)
    (hrep : Replays (start cap d w) (s.log w ++ [e]) (l'.map (proj d s).data))
    (hempty : h.idx = UNDEF → l' = [])
    (htk : takes t ((upd s.log w (s.log w ++ [e])) .head) = popResults rs ++ pending { s with pc := upd s.pc t p } t)
    (hpt : puts t ((upd s.log w (s.log w ++ [e])) .head) = pushResults rs)
    (hth : e.thread = t) :
    Inv cap d { s with mem := casMem s.mem t w g h, pc := upd s.pc t p, log := upd s.log w (s.log w ++ [e]), rets := upd s.rets t rs, late := b } (upd L w l') hl' := by
  have hproj := proj_cas (d := d) (s := s) (t := t) (hi.ne (hv w)) g h hh p (upd s.log w (s.log w ++ [e])) (upd s.rets t rs) b
  have htk' : ∀ u, u ≠ t → takes u ((upd s.log w (s.log w ++ [e])) .head) = takes u (s.log .head) := by
    intro u hu
    by_cases hw : Which.head = w
    · subst hw
      simp only [upd_same, takes, List.filterMap_append]
      simp [hth, Ne.symm hu]
    · rw [upd_other _ _ hw]
  have hpt' : ∀ u, u ≠ t → puts u ((upd s.log w (s.log w ++ [e])) .head) = puts u (s.log .head) := by
    intro u hu
    by_cases hw : Which.head = w
    · subst hw
      simp only [upd_same, puts, List.filterMap_append]
      simp [hth, Ne.symm hu]
    · rw [upd_other _ _ hw]
  refine ⟨by rw [hproj]; exact hbase, ?_, hi.wne, ?_, ?_, ?_, ?_, ?_, ?_, ?_, ?_, ?_⟩
  · intro l
    show (casMem s.mem t w g h).msgs l ≠ []
    by_cases el : l = hv w
    · subst el; rw [cas_hv_same]; simp
    · simp only [casMem]; rw [upd_other _ _ el]; exact hi.ne l
  · intro u i hu
    apply cas_knows
    by_cases eu : u = t
    · subst eu
      have h1 : p.cell = some i := by simpa using hu
      show Knows s.mem ((casMem s.mem u w g h).view u) i
      simp only [casMem, upd_same]; exact hown i h1
    · have h1 : (s.pc u).cell = some i := by simpa [eu] using hu
      exact (hi.own u i h1).mono (cas_view_le s.mem w g h u)
  · intro w' x hx g' hg'
    apply cas_knows
    by_cases ew : w' = w
    · subst ew
      have e1 : g' = ⟨enc h, casView s.mem t w' g⟩ := by
        have : (casMem s.mem t w' g h).last (hv w') = some g' := hg'
        rw [cas_last_same] at this
        exact (Option.some.inj this).symm
      subst e1
      exact hin x (by simpa using hx)
    · have e1 : s.mem.last (hv w') = some g' := by rw [← cas_last_other s.mem w g h w' ew (t := t)]; exact hg'
      exact hi.inl w' x (by simpa [ew] using hx) g' e1
  · intro w' j g' hg'
    have hg' : ((casMem s.mem t w g h).msgs (hv w'))[j]? = some g' := hg'
    by_cases ew : w' = w
    · subst ew
      rw [cas_hv_same] at hg'
      rcases append_get hg' with ⟨h1, _⟩ | ⟨h1, h2⟩
      · exact hi.tags w' j g' h1
      · subst h2
        show (dec (enc h)).aba = _
        rw [dec_enc h hh, haba]
        obtain ⟨g1, h3, h4⟩ := last_ex (hi.ne (hv w'))
        rw [hg] at h3; cases h3
        rw [hi.tags w' _ _ h4]
        have : 0 < (s.mem.msgs (hv w')).length := List.length_pos_iff.mpr (hi.ne (hv w'))
        rw [h1]; unfold TAGS; omega
    · rw [cas_hv_other _ _ _ _ _ ew] at hg'
      exact hi.tags w' j g' hg'
  · intro u
    by_cases eu : u = t
    · subst eu; exact hloc
    · have := hi.loc u
      simp only [Loc, upd_other _ _ eu] at this ⊢
      cases hpu : s.pc u with
      | start c => simp only [hpu] at this ⊢; exact Nat.le_trans this ((cas_view_le s.mem w g h u).1 _)
      | loaded c o j =>
        simp only [hpu] at this ⊢
        obtain ⟨h0, h1, g', h2, h3⟩ := this
        exact ⟨Nat.le_trans h0 ((cas_view_le s.mem w g h u).1 _), h1, g', cas_get s.mem w g h c.src h2, h3⟩
      | linkRead c o j n =>
        simp only [hpu] at this ⊢
        obtain ⟨h1, h0, g', h2, h3⟩ := this
        exact ⟨Nat.le_trans h1 ((cas_view_le s.mem w g h u).1 _), h0, g', cas_get s.mem w g h c.src h2, h3⟩
      | pLoaded c i v o => simp only [hpu] at this ⊢; exact this
      | _ => trivial
  · intro w'
    rw [hproj]
    by_cases ew : w' = w
    · subst ew; show Replays _ (upd _ _ _ _) (List.map _ (upd _ _ _ _)); rw [upd_same, upd_same]; exact hrep
    · show Replays _ (upd _ _ _ _) (List.map _ (upd _ _ _ _)); rw [upd_other _ _ ew, upd_other _ _ ew]; exact hi.rep w'
  · intro w' j g' hg' hu
    have hg' : ((casMem s.mem t w g h).msgs (hv w'))[j]? = some g' := hg'
    by_cases ew : w' = w
    · subst ew
      show Replays _ (List.take j (upd _ _ _ _)) []
      rw [upd_same]
      have hlen := hi.len w'
      rw [cas_hv_same] at hg'
      rcases append_get hg' with ⟨h1, h2⟩ | ⟨h1, h2⟩
      · rw [List.take_append_of_le_length (by omega)]
        exact hi.emp w' j g' h1 hu
      · subst h2
        have hu : (dec (enc h)).idx = UNDEF := hu
        rw [dec_enc h hh] at hu
        rw [List.take_of_length_le (by simp; omega)]
        have := hempty hu
        subst this
        exact hrep
    · show Replays _ (List.take j (upd _ _ _ _)) []
      rw [cas_hv_other _ _ _ _ _ ew] at hg'
      rw [upd_other _ _ ew]; exact hi.emp w' j g' hg' hu
  · intro w'
    have := hi.len w'
    by_cases ew : w' = w
    · subst ew
      show List.length (upd _ _ _ _) + 1 = ((casMem s.mem t w' g h).msgs (hv w')).length
      rw [upd_same, cas_hv_same]; simp; omega
    · show List.length (upd _ _ _ _) + 1 = ((casMem s.mem t w g h).msgs (hv w')).length
      rw [upd_other _ _ ew, cas_hv_other _ _ _ _ _ ew]; exact this
  · intro u
    by_cases eu : u = t
    · subst eu
      show _ = popResults (upd _ _ _ _) ++ _
      rw [upd_same]; exact htk
    · show takes u _ = popResults (upd _ _ _ _) ++ _
      rw [upd_other _ _ eu]
      show takes u ((upd s.log w (s.log w ++ [e])) .head) = _
      rw [htk' u eu, hi.tk u]
      simp [pending, eu, casMem]
  · intro u
    by_cases eu : u = t
    · subst eu
      show _ = pushResults (upd _ _ _ _)
      rw [upd_same]; exact hpt
    · show puts u ((upd s.log w (s.log w ++ [e])) .head) = pushResults (upd _ _ _ _)
      rw [upd_other _ _ eu, hpt' u eu, hi.pt u]

theorem chain_undef {nxt : Nat → Nat} {n : Nat} {r : List Nat} (h : Chain nxt n r) (hr : ∀ x ∈ r, x < 65535) (hn : n = UNDEF) : r = [] := by
  cases r with
  | nil => rfl
  | cons x r => have := hr x (by simp); have := h.1; unfold UNDEF at hn; omega

theorem chain_lt {nxt : Nat → Nat} {n : Nat} {r : List Nat} (h : Chain nxt n r) (hr : ∀ x ∈ r, x < 65535) : n < 65536 := by
  cases r with
  | nil => have := h; simp only [Chain, UNDEF] at this; omega
  | cons x r => have := hr x (by simp); have := h.1; omega

theorem inv_step (hi : Inv cap d s L hl) {s' : St α} {a : Act α} (hs : step true s a = some s') (hlate : s'.late = false) :
    ∃ L' hl', Inv cap d s' L' hl' := by
  cases a with
  | call t c =>
    simp only [step] at hs
    split at hs <;> cases hs
    next hp =>
    refine ⟨L, hl, ?_⟩
    have := inv_local hi (vle.refl (s.mem.view t)) (.start c) (by rw [hp]; rfl) (by simp [LFS.Local])
      (k := (s.mem.view t).a (hv c.src)) (rs := s.rets t) (by simp [Loc]) (by simp [pending, hp]) rfl
    rwa [upd_self, upd_self] at this
  | load t j =>
    simp only [step] at hs
    split at hs
    · next c hp =>
      split at hs <;> cases hs
      next q m hm =>
      obtain ⟨g, hg, rfl, hle, rfl⟩ := loadRlx_some hm
      have hk : s.known t ≤ (s.mem.view t).a (hv c.src) := by have := hi.loc t; simpa [Loc, hp] using this
      exact ⟨L, hl, inv_loaded hi (vle_see _ _ _) (by rw [hp]; rfl) (by simp [pending, hp]) hk (Nat.le_trans hk hle) hg⟩
    · next c i v hp =>
      split at hs <;> cases hs
      next q m hm =>
      obtain ⟨g, hg, rfl, hle, rfl⟩ := loadRlx_some hm
      exact ⟨L, hl, inv_pLoaded hi (vle_see _ _ _) (.inl hp)⟩
    · cases hs
  | giveUp t =>
    simp only [step] at hs
    split at hs
    · next c orig j hp =>
      split at hs <;> cases hs
      refine ⟨L, hl, ?_⟩
      have := inv_local hi (vle.refl (s.mem.view t)) .idle (by rw [hp]; rfl) (by simp [LFS.Local])
        (k := s.known t) (rs := s.rets t ++ [(c, c.failRes)]) (by simp [Loc])
        (by cases c <;> simp [pending, hp, popResults, Call.failRes]) (by cases c <;> simp [pushResults, Call.failRes])
      rwa [upd_self, upd_self] at this
    · cases hs
  | link t k =>
    simp only [step] at hs
    split at hs
    · next c orig j hp =>
      split at hs
      · next hc =>
        split at hs <;> cases hs
        next q m hm =>
        obtain ⟨g, hg, rfl, hle, rfl⟩ := loadRlx_some hm
        refine ⟨L, hl, ?_⟩
        have hloc := hi.loc t
        simp only [Loc, hp] at hloc
        obtain ⟨hk, _, g0, hg0, ho⟩ := hloc
        have hl0 := loc_of hi hg0
        rw [ho] at hl0
        have := inv_local hi (vle_see (s.mem.view t) (lv orig.idx) k) (.linkRead c orig j (g.val % 65536).toNat) (by rw [hp]; rfl)
          (by
            simp only [LFS.Local, upd_same]
            refine ⟨hl0.1, hl0.2.1, hl0.2.2, hc.1, ?_⟩
            intro hj
            -- the newest head is stored by a thread that knew the newest link
            have hd0 := hl0.2.2 hj
            obtain ⟨r, hL, _⟩ := list_cons hi.base c.src (by rw [hd0]; exact hc.1)
            rw [hd0] at hL
            obtain ⟨g1, h1, h2⟩ := last_ex (hi.ne (hv c.src))
            have e1 : g1 = g0 := by
              simp only [proj] at hj
              rw [← hj, hg0] at h2
              exact (Option.some.inj h2).symm
            subst e1
            have hkn := (hi.inl c.src orig.idx (by rw [hL]; simp) g1 h1).1
            have hdep := hc.2
            simp only [depOk, hg0, Bool.not_true, Bool.false_or, decide_eq_true_eq] at hdep
            have hklt : k < (s.mem.msgs (lv orig.idx)).length := by
              by_contra hn
              rw [List.getElem?_eq_none (by omega)] at hg; cases hg
            obtain ⟨g2, h3, h4⟩ := last_ex (hi.ne (lv orig.idx))
            have ek : k = (s.mem.msgs (lv orig.idx)).length - 1 := by omega
            rw [ek, h4] at hg
            cases hg
            simp [proj, newest, h3])
          (k := s.known t) (rs := s.rets t) (by simpa [Loc] using ⟨Nat.le_trans hk ((vle_see _ _ _).1 _), by omega, g0, hg0, ho⟩) (by simp [pending, hp]) rfl
        rwa [upd_self, upd_self] at this
      · cases hs
    · cases hs
  | data t =>
    simp only [step] at hs
    split at hs
    · next x i hp => cases hs; exact ⟨L, hl, inv_write hi hp⟩
    · next i hp =>
      split at hs <;> cases hs
      next v m hm => exact ⟨L, hl, inv_read hi hp hm⟩
    · cases hs
  | setLink t =>
    simp only [step] at hs
    split at hs <;> cases hs
    next c i v orig hp => exact ⟨L, hl, inv_setLink hi hp⟩
  | casFail t j =>
    simp only [step] at hs
    split at hs
    · next c orig j0 n hp =>
      split at hs <;> cases hs
      next q m hm =>
      obtain ⟨g, hg, rfl, hle, rfl⟩ := Mem.load_some hm
      have hk : s.known t ≤ (s.mem.view t).a (hv c.src) := by have := hi.loc t; simp only [Loc, hp] at this; exact this.1
      exact ⟨L, hl, inv_loaded hi ((vle_joinL _ _).trans (vle_see _ _ _)) (by rw [hp]; rfl) (by simp [pending, hp]) hk (Nat.le_trans hk hle) hg⟩
    · next c i v orig hp =>
      split at hs <;> cases hs
      next q m hm =>
      obtain ⟨g, hg, rfl, hle, rfl⟩ := Mem.load_some hm
      exact ⟨L, hl, inv_pLoaded hi ((vle_joinL _ _).trans (vle_see _ _ _)) (.inr ⟨orig, hp⟩)⟩
    · cases hs
  | cas t =>
    simp only [step] at hs
    split at hs
    · next c orig j n hp =>
      split at hs
      · next g v vs hg hv' =>
        split at hs
        · next hcas =>
          split at hs
          · next m' q m hm =>
            cases hs
            obtain ⟨g1, hg1, _, rfl⟩ := rmw_some hm
            rw [hg] at hg1
            cases hg1
            have hlate : s.late = false ∧ ¬ (j + TAGS < (s.mem.msgs (hv c.src)).length) := by simpa using hlate
            have hloc := hi.loc t
            simp only [Loc, hp] at hloc
            obtain ⟨_, hn, g0, hg0, ho⟩ := hloc
            have hb := hi.base.loc t
            simp only [LFS.Local, cell_proj, hp] at hb
            have hhd : (proj d s).hd c.src = orig := by simp [proj, newest, hg, hcas]
            have hver : j = (proj d s).ver c.src := by
              have h1 := hi.base.tag c.src
              rw [hhd, hb.2.1] at h1
              have h2 := hb.1
              have h3 : (proj d s).ver c.src = (s.mem.msgs (hv c.src)).length - 1 := rfl
              have h4 : 0 < (s.mem.msgs (hv c.src)).length := List.length_pos_iff.mpr (hi.ne _)
              unfold TAGS at *
              omega
            obtain ⟨r, hL, hch⟩ := list_cons hi.base c.src (by rw [hhd]; exact hb.2.2.2.1)
            rw [hhd, hb.2.2.2.2 hver] at hch
            have hbase := inv_popCas hi.base c n (t := t) (by rw [cell_proj, hp]; rfl) hL hch
            rw [hhd] at hbase hL
            have hlt : ∀ x ∈ r, x < 65535 := fun x hx => by
              have := hi.base.ltList (w := c.src) (i := x) (by rw [hL]; simp [hx]); omega
            have hdata : (proj d s).data orig.idx = v := by simp [proj, hv']
            have hrep := hi.rep c.src
            rw [hL, List.map_cons, hdata] at hrep
            refine ⟨upd L c.src r, (t, orig.idx) :: hl, ?_⟩
            rw [← upd_self s.rets t]
            refine inv_cas hi hg (h := orig.bump n) hn (by rw [hcas]; rfl) hbase ?_ ?_ ?_ (hrep.snoc_take t) ?_ ?_ ?_ rfl
            · intro i hci
              have : orig.idx = i := by simpa [PC.cell] using hci
              subst this
              exact (hi.inl c.src orig.idx (by rw [hL]; simp) g hg).mono (cas_le' _ _ _)
            · intro x hx
              exact (hi.inl c.src x (by rw [hL]; simp [hx]) g hg).mono (cas_le' _ _ _)
            · simp [Loc]
            · intro hu
              exact chain_undef hch hlt hu
            · have := hi.tk t
              cases c with
              | pop =>
                simp only [Call.src, upd_same]
                simp only [takes, List.filterMap_append] at this ⊢
                rw [this]
                simp [pending, hp, hv']
              | push x =>
                simp only [Call.src, upd_other _ _ (by decide : Which.head ≠ Which.free)]
                rw [this]
                simp [pending, hp]
            · have := hi.pt t
              cases c with
              | pop =>
                simp only [Call.src, upd_same]
                simp only [puts, List.filterMap_append] at this ⊢
                rw [this]
                simp
              | push x =>
                simp only [Call.src, upd_other _ _ (by decide : Which.head ≠ Which.free)]
                rw [this]
          · cases hs
        · cases hs
      · cases hs
    · next c i v orig hp =>
      split at hs
      · next g x xs hg hx =>
        split at hs
        · next hcas =>
          split at hs
          · next m' q m hm =>
            cases hs
            obtain ⟨g1, hg1, _, rfl⟩ := rmw_some hm
            rw [hg] at hg1
            cases hg1
            have hb := hi.base.loc t
            simp only [LFS.Local, cell_proj, hp] at hb
            have hhd : (proj d s).hd c.dst = orig := by simp [proj, newest, hg, hcas]
            have hcell : (s.pc t).cell = some i := by rw [hp]; rfl
            have hbase := inv_pushCas hi.base c i (t := t) hcell (by rw [hhd]; exact hb.2)
            rw [hhd] at hbase
            have hil : i < 65535 := by have := hi.base.ltCell (s := proj d s) hcell; omega
            have hdata : (proj d s).data i = x := by simp [proj, hx]
            have hrep := (hi.rep c.dst).snoc_put t x
            refine ⟨_, _, inv_cas hi hg (h := orig.bump i) (by simp only [Head.bump]; omega) (by rw [hcas]; rfl) hbase ?_ ?_ ?_ ?_ ?_ ?_ ?_ rfl⟩
            · intro i' hci; simp [PC.cell] at hci
            · intro y hy
              rcases List.mem_cons.mp hy with rfl | hy
              · exact (hi.own t y hcell).mono (cas_le _ _ _)
              · exact (hi.inl c.dst y hy g hg).mono (cas_le' _ _ _)
            · simp [Loc]
            · rw [List.map_cons, hdata]; exact hrep
            · intro hu
              have : i = UNDEF := hu
              unfold UNDEF at this; omega
            · have := hi.tk t
              cases c with
              | push y =>
                simp only [Call.dst, upd_same]
                simp only [takes, List.filterMap_append] at this ⊢
                rw [this]
                simp [pending, hp, popResults, Call.okRes]
              | pop =>
                simp only [Call.dst, upd_other _ _ (by decide : Which.head ≠ Which.free)]
                rw [this]
                simp [pending, hp, popResults, Call.okRes]
            · have := hi.pt t
              cases c with
              | push y =>
                have e : x = y := by
                  have := hb.1.2
                  rw [hdata] at this; exact this
                subst e
                simp only [Call.dst, upd_same]
                simp only [puts, List.filterMap_append] at this ⊢
                rw [this]
                simp [pushResults, Call.okRes]
              | pop =>
                simp only [Call.dst, upd_other _ _ (by decide : Which.head ≠ Which.free)]
                rw [this]
                simp [pushResults, Call.okRes]
          · cases hs
        · cases hs
      · cases hs
    · cases hs
  | sync t u =>
    cases hs
    refine ⟨L, hl, hi.base, hi.ne, hi.wne, ?_, hi.inl, hi.tags, ?_, hi.rep, hi.emp, hi.len, hi.tk, hi.pt⟩
    · intro v i hv
      have h := hi.own v i hv
      by_cases e : v = t
      · subst e
        show Knows _ (upd _ _ _ _) i
        rw [upd_same]; exact h.mono (vle_joinL _ _)
      · show Knows _ (upd _ _ _ _) i
        rw [upd_other _ _ e]; exact h
    · intro v
      have h := hi.loc v
      have hle : ∀ l, (s.mem.view v).a l ≤ (upd s.mem.view t ((s.mem.view t).join (s.mem.view u)) v).a l := by
        intro l
        by_cases e : v = t
        · subst e; rw [upd_same]; exact (vle_joinL _ _).1 l
        · rw [upd_other _ _ e]; exact Nat.le_refl _
      simp only [Loc] at h ⊢
      cases hpv : s.pc v with
      | start c => simp only [hpv] at h ⊢; exact Nat.le_trans h (hle _)
      | loaded c o j => simp only [hpv] at h ⊢; exact ⟨Nat.le_trans h.1 (hle _), h.2⟩
      | linkRead c o j n => simp only [hpv] at h ⊢; exact ⟨Nat.le_trans h.1 (hle _), h.2⟩
      | pLoaded c i v o => simp only [hpv] at h ⊢; exact h
      | _ => trivial

theorem step_late {dep : Bool} {s s' : St α} {a : Act α} (hs : step dep s a = some s') (h : s'.late = false) : s.late = false := by
  cases a <;> simp only [step] at hs <;> (repeat' split at hs) <;> first | cases hs | skip
  all_goals first | exact h | (simp only [Bool.or_eq_false_iff] at h; exact h.1)

theorem Reach.inv {s : St α} (hcap : 1 ≤ cap) (h : Reach true cap d s) (hl : s.late = false) : ∃ L hl, Inv cap d s L hl := by
  induction h with
  | init => exact ⟨_, _, init_inv cap hcap d⟩
  | step _ hs ih =>
    obtain ⟨L, hl', hi⟩ := ih (step_late hs hl)
    exact inv_step hi hs hl

end Verif.RaStack
