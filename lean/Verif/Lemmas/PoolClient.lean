import Verif.Spec.PoolClient
import Verif.Lemmas.LockFreeStack
import Mathlib.Data.List.Perm.Subperm

namespace Verif.LFS

/-- the element in transit in a thread -/
def Status.obj : Status Nat → Option Nat
  | .called (.push x) => some x
  | .done .pop (.popped (some v)) => some v
  | _ => none

structure PoolInv (n : Nat) (a : Abs Nat) (out : List Nat) (tl : List (Nat × Nat)) : Prop where
  tr : ∀ t o, (t, o) ∈ tl ↔ (a.st t).obj = some o
  nodup : (tl.map Prod.fst).Nodup
  perm : (a.l ++ tl.map Prod.snd ++ out).Perm (List.range n)
  ok : ∀ t c, a.st t ≠ .done c (.pushed false)
  shape : ∀ t c v, a.st t = .done c (.popped v) → c = .pop

theorem poolInv_init (n : Nat) : PoolInv n (Abs.initial n id) [] [] := by
  refine ⟨?_, ?_, ?_, ?_, ?_⟩
  · intro t o; simp [Abs.initial, Status.obj]
  · simp
  · simp [Abs.initial]
  · intro t c; simp [Abs.initial]
  · intro t c v; simp [Abs.initial]

theorem obj_of_inTransit {st : Status Nat} (h : st.inTransit) : ∃ o, st.obj = some o := by
  cases st with
  | idle => simp [Status.inTransit] at h
  | called c => cases c <;> simp [Status.inTransit] at h; simp [Status.obj]
  | done c r =>
    cases c <;> cases r <;> simp [Status.inTransit] at h
    rename_i v; cases v <;> simp [Status.inTransit] at h; simp [Status.obj]

theorem length_le_of_nodup_subset {l m : List Nat} (h : l.Nodup) (hs : ∀ x ∈ l, x ∈ m) :
    l.length ≤ m.length := (List.subperm_of_subset h hs).length_le

section
variable {n : Nat} {a : Abs Nat} {out : List Nat} {tl : List (Nat × Nat)} {t : Nat}

/-- adding a thread in transit -/
theorem tr_add (h : PoolInv n a out tl) (st : Status Nat) (o : Nat) (hold : (a.st t).obj = none)
    (hnew : st.obj = some o) :
    (∀ u p, (u, p) ∈ (t, o) :: tl ↔ (upd a.st t st u).obj = some p) ∧
    (((t, o) :: tl).map Prod.fst).Nodup := by
  constructor
  · intro u p
    by_cases hu : u = t
    · subst hu
      simp only [List.mem_cons, h.tr, hold, upd_same, hnew]
      simp [eq_comm]
    · simp [List.mem_cons, h.tr, hu]
  · simp only [List.map_cons, List.nodup_cons]
    refine ⟨?_, h.nodup⟩
    intro hm
    obtain ⟨⟨u, i⟩, hm1, hm2⟩ := List.mem_map.mp hm
    simp only at hm2
    subst hm2
    have := (h.tr _ i).mp hm1
    simp [hold] at this

/-- removing a thread in transit -/
theorem tr_del (h : PoolInv n a out tl) (st : Status Nat) (o : Nat) (hold : (a.st t).obj = some o)
    (hnew : st.obj = none) :
    (∀ u p, (u, p) ∈ tl.erase (t, o) ↔ (upd a.st t st u).obj = some p) ∧
    ((tl.erase (t, o)).map Prod.fst).Nodup ∧
    (tl.map Prod.snd).Perm (o :: (tl.erase (t, o)).map Prod.snd) := by
  have hmem : (t, o) ∈ tl := (h.tr t o).mpr hold
  have hperm : tl.Perm ((t, o) :: tl.erase (t, o)) := List.perm_cons_erase hmem
  have hnd : (((t, o) :: tl.erase (t, o)).map Prod.fst).Nodup :=
    ((hperm.map Prod.fst).nodup_iff).mp h.nodup
  simp only [List.map_cons, List.nodup_cons] at hnd
  refine ⟨?_, hnd.2, hperm.map Prod.snd⟩
  intro u p
  by_cases hu : u = t
  · subst hu
    simp only [upd_same, hnew, reduceCtorEq, iff_false]
    intro hm
    exact hnd.1 (List.mem_map.mpr ⟨_, hm, rfl⟩)
  · simp only [hu, ne_eq, not_false_eq_true, upd_other]
    rw [← h.tr u p, hperm.mem_iff]
    simp [hu]

/-- a status change that keeps the object in transit -/
theorem tr_keep (h : PoolInv n a out tl) (st : Status Nat) (hk : st.obj = (a.st t).obj) :
    (∀ u p, (u, p) ∈ tl ↔ (upd a.st t st u).obj = some p) := by
  intro u p
  by_cases hu : u = t
  · subst hu; simp [h.tr, hk]
  · simp [h.tr, hu]

theorem upd_ok (h : PoolInv n a out tl) (st : Status Nat) (h1 : ∀ c, st ≠ .done c (.pushed false))
    (h2 : ∀ c v, st = .done c (.popped v) → c = .pop) :
    (∀ u c, upd a.st t st u ≠ .done c (.pushed false)) ∧
    (∀ u c v, upd a.st t st u = .done c (.popped v) → c = .pop) := by
  constructor
  · intro u c
    by_cases hu : u = t
    · subst hu; simpa using h1 c
    · simpa [hu] using h.ok u c
  · intro u c v
    by_cases hu : u = t
    · subst hu; simpa using h2 c v
    · simpa [hu] using h.shape u c v

end

theorem pool_step {n : Nat} {a a' : Abs Nat} {out : List Nat} {tl : List (Nat × Nat)}
    {o h : List (Obs Nat)} (hI : PoolInv n a out tl) (hs : SpecStep n a o a')
    (hg : GivesBackOnly out (o ++ h)) :
    ∃ tl', PoolInv n a' (o.foldl outAfter out) tl' ∧ GivesBackOnly (o.foldl outAfter out) h ∧
      (Exclusive n (o.foldl outAfter out) h → Exclusive n out (o ++ h)) := by
  cases hs with
  | inv t c hst =>
    cases c with
    | push x =>
      obtain ⟨hg1, hg2⟩ := hg
      have hx : x ∈ out := hg1 t x rfl
      have hA := tr_add (t := t) hI (.called (.push x)) x (by rw [hst]; rfl) rfl
      have hB := upd_ok (t := t) hI (.called (.push x)) (by simp) (by simp)
      refine ⟨(t, x) :: tl, ⟨hA.1, hA.2, ?_, hB.1, hB.2⟩, hg2, ?_⟩
      · refine List.Perm.trans ?_ hI.perm
        simp only [List.foldl_cons, List.foldl_nil, outAfter, List.map_cons]
        have := List.perm_cons_erase hx
        refine List.Perm.trans ?_ (List.Perm.append_left _ this.symm)
        refine List.Perm.trans (List.Perm.append_right _ List.perm_middle) ?_
        exact List.perm_middle.symm
      · intro he; exact ⟨by simp, by simp, he⟩
    | pop =>
      obtain ⟨hg1, hg2⟩ := hg
      have hA := tr_keep (t := t) hI (.called .pop) (by rw [hst]; rfl)
      have hB := upd_ok (t := t) hI (.called .pop) (by simp) (by simp)
      refine ⟨tl, ⟨hA, hI.nodup, hI.perm, hB.1, hB.2⟩, hg2, ?_⟩
      intro he; exact ⟨by simp, by simp, he⟩
  | push t x hst hlen =>
    have hA := tr_del (t := t) hI (.done (.push x) (.pushed true)) x (by rw [hst]; rfl) rfl
    have hB := upd_ok (t := t) hI (.done (.push x) (.pushed true)) (by simp) (by simp)
    refine ⟨_, ⟨hA.1, hA.2.1, ?_, hB.1, hB.2⟩, hg, fun he => he⟩
    refine List.Perm.trans ?_ hI.perm
    simp only [List.foldl_nil]
    refine List.Perm.append_right _ ?_
    refine List.Perm.trans ?_ (List.Perm.append_left _ hA.2.2.symm)
    simp only [List.cons_append]
    exact List.perm_middle.symm
  | pushFull t x ts hst hn ht hts hc =>
    exfalso
    have h1 := hI.perm.length_eq
    have hmem : t ∈ tl.map Prod.fst :=
      List.mem_map.mpr ⟨(t, x), (hI.tr t x).mpr (by rw [hst]; rfl), rfl⟩
    have h2 : (t :: ts).length ≤ (tl.map Prod.fst).length := by
      apply length_le_of_nodup_subset
      · simp [hn, ht]
      · intro u hu
        simp only [List.mem_cons] at hu
        rcases hu with rfl | hu
        · exact hmem
        · obtain ⟨o, ho⟩ := obj_of_inTransit (hts u hu)
          exact List.mem_map.mpr ⟨(u, o), (hI.tr u o).mpr ho, rfl⟩
    simp at h1 h2
    omega
  | pop t v l' hst hl =>
    have hA := tr_add (t := t) hI (.done .pop (.popped (some v))) v (by rw [hst]; rfl) rfl
    have hB := upd_ok (t := t) hI (.done .pop (.popped (some v))) (by simp) (by simp)
    refine ⟨_, ⟨hA.1, hA.2, ?_, hB.1, hB.2⟩, hg, fun he => he⟩
    refine List.Perm.trans ?_ hI.perm
    simp only [List.foldl_nil, hl, List.map_cons, List.cons_append]
    exact List.Perm.append_right _ List.perm_middle
  | popEmpty t hst hl =>
    have hA := tr_keep (t := t) hI (.done .pop (.popped none)) (by rw [hst]; rfl)
    have hB := upd_ok (t := t) hI (.done .pop (.popped none)) (by simp) (by simp)
    exact ⟨tl, ⟨hA, hI.nodup, hI.perm, hB.1, hB.2⟩, hg, fun he => he⟩
  | ret t c r hst =>
    have hB := upd_ok (t := t) hI .idle (by simp) (by simp)
    cases r with
    | pushed b =>
      have hb : b = true := by
        cases b with
        | true => rfl
        | false => exact absurd hst (hI.ok t c)
      subst hb
      have hA := tr_keep (t := t) hI .idle (by rw [hst]; cases c <;> rfl)
      refine ⟨tl, ⟨hA, hI.nodup, hI.perm, hB.1, hB.2⟩, hg.2, ?_⟩
      intro he
      refine ⟨by simp, by simp, he⟩
    | popped v =>
      have hc : c = .pop := hI.shape t c v hst
      subst hc
      cases v with
      | none =>
        have hA := tr_keep (t := t) hI .idle (by rw [hst]; rfl)
        refine ⟨tl, ⟨hA, hI.nodup, hI.perm, hB.1, hB.2⟩, hg.2, ?_⟩
        intro he
        exact ⟨by simp, by simp, he⟩
      | some v =>
        have hA := tr_del (t := t) hI .idle v (by rw [hst]; rfl) rfl
        have hmem : v ∈ tl.map Prod.snd :=
          List.mem_map.mpr ⟨(t, v), (hI.tr t v).mpr (by rw [hst]; rfl), rfl⟩
        have hnd : (a.l ++ tl.map Prod.snd ++ out).Nodup := hI.perm.nodup_iff.mpr List.nodup_range
        have hlt : v < n := by
          have : v ∈ List.range n := hI.perm.mem_iff.mp (by
            rw [List.mem_append, List.mem_append]; exact Or.inl (Or.inr hmem))
          simpa using this
        refine ⟨_, ⟨hA.1, hA.2.1, ?_, hB.1, hB.2⟩, hg.2, ?_⟩
        · refine List.Perm.trans ?_ hI.perm
          simp only [List.foldl_cons, List.foldl_nil, outAfter]
          refine List.perm_middle.trans ?_
          refine List.Perm.trans ?_ (List.Perm.append_right _ (List.Perm.append_left _ hA.2.2.symm))
          have := List.perm_middle (a := v) (l₁ := a.l) (l₂ := (tl.erase (t, v)).map Prod.snd)
          exact (List.Perm.append_right out this).symm
        · intro he
          refine ⟨?_, by simp, he⟩
          intro t' c' o' e
          simp only [Obs.ret.injEq, Res.popped.injEq, Option.some.injEq] at e
          obtain ⟨_, _, rfl⟩ := e
          refine ⟨?_, hlt⟩
          intro ho
          rw [List.nodup_append] at hnd
          exact hnd.2.2 v (List.mem_append_right _ hmem) v ho rfl

theorem pool_run {n : Nat} {a a' : Abs Nat} {out : List Nat} {tl : List (Nat × Nat)}
    {h : List (Obs Nat)} (hI : PoolInv n a out tl) (hs : SpecRun n a h a')
    (hg : GivesBackOnly out h) :
    Exclusive n out h ∧ ∃ tl', PoolInv n a' (h.foldl outAfter out) tl' := by
  induction hs generalizing out tl with
  | nil => exact ⟨trivial, tl, hI⟩
  | cons h1 _ ih =>
    obtain ⟨tl1, hI1, hg1, hE⟩ := pool_step hI h1 hg
    obtain ⟨hE2, tl2, hI2⟩ := ih hI1 hg1
    exact ⟨hE hE2, tl2, by rw [List.foldl_append]; exact hI2⟩

end Verif.LFS
