import Verif.Spec.AtomicStack
import Mathlib.Data.List.Nodup

set_option linter.unnecessarySimpa false
set_option linter.unusedSimpArgs false

namespace Verif.LFS

variable {α : Type}

/-- The node a thread owns. -/
def PC.cell : PC α → Option Nat
  | .holds _ i => some i
  | .filled _ i _ => some i
  | .pLoaded _ i _ _ => some i
  | .pLinked _ i _ _ => some i
  | _ => none

def valOK (data : Nat → α) : Call α → Nat → α → Prop
  | .push x, i, v => v = x ∧ data i = x
  | .pop, _, _ => True

/-- What is known about one thread. -/
def Local (s : State α) (t : Nat) : Prop :=
  match s.pc t with
  | .idle => True
  | .start _ => True
  | .loaded c orig ver =>
    ver ≤ s.ver c.src ∧ orig.aba = ver % TAGS ∧ (ver = s.ver c.src → s.hd c.src = orig)
  | .linkRead c orig ver n =>
    ver ≤ s.ver c.src ∧ orig.aba = ver % TAGS ∧ (ver = s.ver c.src → s.hd c.src = orig) ∧
    orig.idx ≠ UNDEF ∧ (ver = s.ver c.src → s.nxt orig.idx = n)
  | .holds _ _ => True
  | .filled c i v => valOK s.data c i v
  | .pLoaded c i v _ => valOK s.data c i v
  | .pLinked c i v orig => valOK s.data c i v ∧ s.nxt i = orig.idx

/-- The abstract status of a thread. -/
def PC.status (s : State α) : PC α → Status α
  | .idle => .idle
  | .start c => .called c
  | .loaded c orig _ => if orig.idx = UNDEF then .done c c.failRes else .called c
  | .linkRead c _ _ _ => .called c
  | .holds (.push x) _ => .called (.push x)
  | .holds .pop i => .done .pop (.popped (some (s.data i)))
  | .filled (.push x) _ _ => .called (.push x)
  | .filled .pop _ v => .done .pop (.popped (some v))
  | .pLoaded (.push x) _ _ _ => .called (.push x)
  | .pLoaded .pop _ v _ => .done .pop (.popped (some v))
  | .pLinked (.push x) _ _ _ => .called (.push x)
  | .pLinked .pop _ v _ => .done .pop (.popped (some v))

structure Inv (cap : Nat) (s : State α) (L : Which → List Nat) (hl : List (Nat × Nat)) : Prop where
  chain : ∀ w, Chain s.nxt (s.hd w).idx (L w)
  held : ∀ t i, (t, i) ∈ hl ↔ (s.pc t).cell = some i
  nodup : (hl.map Prod.fst).Nodup
  perm : (L .head ++ L .free ++ hl.map Prod.snd).Perm (List.range cap)
  tag : ∀ w, (s.hd w).aba = s.ver w % TAGS
  loc : ∀ t, Local s t

structure Sim (cap : Nat) (s : State α) (a : Abs α) (L : Which → List Nat) (hl : List (Nat × Nat)) :
    Prop where
  inv : Inv cap s L hl
  stack : a.l = (L .head).map s.data
  status : ∀ t, a.st t = (s.pc t).status s

/-! ### basic facts -/

theorem chain_congr {f g : Nat → Nat} {i : Nat} {l : List Nat} (h : Chain f i l)
    (hfg : ∀ x ∈ l, g x = f x) : Chain g i l := by
  induction l generalizing i with
  | nil => exact h
  | cons x r ih =>
    obtain ⟨h1, h2⟩ := h
    refine ⟨h1, ?_⟩
    rw [hfg x (by simp)]
    exact ih h2 (fun y hy => hfg y (by simp [hy]))

theorem chain_init (cap i : Nat) (h : i < cap) :
    Chain (fun i => if i + 1 < cap then i + 1 else UNDEF) i (List.range' i (cap - i)) := by
  obtain ⟨n, hn⟩ : ∃ n, cap = i + 1 + n := ⟨cap - i - 1, by omega⟩
  subst hn
  induction n generalizing i with
  | zero =>
    have : i + 1 + 0 - i = 1 := by omega
    rw [this]
    simp [List.range', Chain]
  | succ n ih =>
    have : i + 1 + (n + 1) - i = n + 2 := by omega
    rw [this, List.range'_succ]
    refine ⟨rfl, ?_⟩
    have := ih (i + 1) (by omega)
    have e : i + 1 + 1 + n - (i + 1) = n + 1 := by omega
    rw [e] at this
    have e2 : i + 1 + (n + 1) = i + 1 + 1 + n := by omega
    rw [e2]
    have e3 : i + 1 < i + 1 + 1 + n := by omega
    simp only [e3, if_true]
    exact this

def initL (cap : Nat) : Which → List Nat
  | .head => List.range cap
  | .free => []

theorem sim_init (cap : Nat) (h1 : 1 ≤ cap) (d : Nat → α) :
    Sim (min cap 65535) (init cap d) (Abs.initial (min cap 65535) d) (initL (min cap 65535)) [] := by
  refine ⟨⟨?_, ?_, ?_, ?_, ?_, ?_⟩, ?_, ?_⟩
  · intro w
    cases w
    · have := chain_init (min cap 65535) 0 (by omega)
      rw [Nat.sub_zero, ← List.range_eq_range'] at this
      refine chain_congr this ?_
      intro x hx
      have hx : x < min cap 65535 := by simpa [initL] using hx
      simp only [init, UNDEF]
      split <;> split <;> omega
    · simp [init, initL, Chain]
  · intro t i; simp [init, PC.cell]
  · simp
  · simp [initL]
  · intro w; cases w <;> simp [init]
  · intro t; simp [Local, init]
  · simp [Abs.initial, initL, init]
  · intro t; simp [Abs.initial, init, PC.status]

section facts
variable {cap : Nat} {s : State α} {L : Which → List Nat} {hl : List (Nat × Nat)}

theorem Inv.nodupAll (h : Inv cap s L hl) :
    (L .head ++ L .free ++ hl.map Prod.snd).Nodup :=
  h.perm.nodup_iff.mpr List.nodup_range

theorem Inv.ltList (h : Inv cap s L hl) {w : Which} {i : Nat} (hi : i ∈ L w) : i < cap := by
  have : i ∈ List.range cap := h.perm.mem_iff.mp (by cases w <;> simp [hi])
  simpa using this

theorem Inv.ltCell (h : Inv cap s L hl) {t i : Nat} (hi : (s.pc t).cell = some i) : i < cap := by
  have h1 : (t, i) ∈ hl := (h.held t i).mpr hi
  have h2 : i ∈ hl.map Prod.snd := List.mem_map.mpr ⟨(t, i), h1, rfl⟩
  have : i ∈ List.range cap := h.perm.mem_iff.mp (by simp only [List.mem_append]; right; exact h2)
  simpa using this

/-- an owned node is in no list -/
theorem Inv.cell_not_mem (h : Inv cap s L hl) {t i : Nat} (hi : (s.pc t).cell = some i)
    (w : Which) : i ∉ L w := by
  intro hw
  have h1 : (t, i) ∈ hl := (h.held t i).mpr hi
  have h2 : i ∈ hl.map Prod.snd := List.mem_map.mpr ⟨(t, i), h1, rfl⟩
  have hd := h.nodupAll
  rw [List.nodup_append] at hd
  exact hd.2.2 i (by cases w <;> simp [hw]) i h2 rfl

/-- two threads never own the same node -/
theorem Inv.cell_inj (h : Inv cap s L hl) {t u i : Nat} (ht : (s.pc t).cell = some i)
    (hu : (s.pc u).cell = some i) : t = u := by
  have h1 : (t, i) ∈ hl := (h.held t i).mpr ht
  have h2 : (u, i) ∈ hl := (h.held u i).mpr hu
  have hd := h.nodupAll
  rw [List.nodup_append] at hd
  have hd2 := hd.2.1
  have := List.inj_on_of_nodup_map hd2 h1 h2 rfl
  exact congrArg Prod.fst this

theorem list_empty_iff (h : Inv cap s L hl) (hc : cap ≤ UNDEF) (w : Which) :
    (s.hd w).idx = UNDEF ↔ L w = [] := by
  have hch := h.chain w
  cases hL : L w with
  | nil => rw [hL] at hch; simpa [Chain] using hch
  | cons x r =>
    rw [hL] at hch
    have : x < cap := h.ltList (w := w) (by simp [hL])
    have := hch.1
    simp
    omega

theorem list_cons (h : Inv cap s L hl) (w : Which) (hn : (s.hd w).idx ≠ UNDEF) :
    ∃ r, L w = (s.hd w).idx :: r ∧ Chain s.nxt (s.nxt (s.hd w).idx) r := by
  have hch := h.chain w
  cases hL : L w with
  | nil => rw [hL] at hch; exact absurd hch hn
  | cons x r =>
    rw [hL] at hch
    refine ⟨r, ?_, ?_⟩
    · rw [hch.1]
    · rw [hch.1]; exact hch.2

end facts

theorem SpecRun.single {cap : Nat} {a a' : Abs α} {o : List (Obs α)} (h : SpecStep cap a o a') :
    SpecRun cap a o a' := by
  have := SpecRun.cons h (SpecRun.nil a')
  simpa using this

theorem SpecRun.trans {cap : Nat} {a a' a'' : Abs α} {o o' : List (Obs α)} (h : SpecRun cap a o a')
    (h' : SpecRun cap a' o' a'') : SpecRun cap a (o ++ o') a'' := by
  induction h with
  | nil => simpa using h'
  | cons h1 _ ih => rw [List.append_assoc]; exact SpecRun.cons h1 (ih h')

section steps
variable {cap : Nat} {s : State α} {a : Abs α} {L : Which → List Nat} {hl : List (Nat × Nat)}
  {t : Nat}

/-- a step that changes only the program counter of `t`, keeping the node it owns -/
theorem inv_pc (h : Inv cap s L hl) (p : PC α) (hcell : p.cell = (s.pc t).cell)
    (hloc : Local { s with pc := upd s.pc t p } t) :
    Inv cap { s with pc := upd s.pc t p } L hl := by
  refine ⟨h.chain, ?_, h.nodup, h.perm, h.tag, ?_⟩
  · intro u i
    rw [h.held]
    by_cases hu : u = t
    · subst hu; simp [hcell]
    · simp [hu]
  · intro u
    by_cases hu : u = t
    · subst hu; exact hloc
    · have := h.loc u
      simpa [Local, hu, valOK] using this

theorem sim_pc (h : Sim cap s a L hl) (p : PC α) (hcell : p.cell = (s.pc t).cell)
    (hloc : Local { s with pc := upd s.pc t p } t) :
    Sim cap { s with pc := upd s.pc t p } { a with st := upd a.st t (p.status s) } L hl := by
  refine ⟨inv_pc h.inv p hcell hloc, h.stack, ?_⟩
  intro u
  by_cases hu : u = t
  · subst hu
    simp only [upd_same]
    cases p with
    | holds c i => cases c <;> rfl
    | filled c i v => cases c <;> rfl
    | pLoaded c i v o => cases c <;> rfl
    | pLinked c i v o => cases c <;> rfl
    | _ => rfl
  · have := h.status u
    simp only [hu, ne_eq, not_false_eq_true, upd_other]
    rw [this]
    cases s.pc u with
    | holds c i => cases c <;> rfl
    | filled c i v => cases c <;> rfl
    | pLoaded c i v o => cases c <;> rfl
    | pLinked c i v o => cases c <;> rfl
    | _ => rfl

/-- same, when the abstract status does not change -/
theorem sim_pc' (h : Sim cap s a L hl) (p : PC α) (hcell : p.cell = (s.pc t).cell)
    (hloc : Local { s with pc := upd s.pc t p } t) (hst : p.status s = (s.pc t).status s) :
    Sim cap { s with pc := upd s.pc t p } a L hl := by
  have := sim_pc h p hcell hloc
  have e : upd a.st t (p.status s) = a.st := by
    funext u
    by_cases hu : u = t
    · subst hu; simp [hst, h.status]
    · simp [hu]
  rw [e] at this
  exact this

/-- the held threads other than `t` are in transit -/
theorem transit_of_held (h : Sim cap s a L hl) {u i : Nat} (hu : (u, i) ∈ hl) :
    (a.st u).inTransit := by
  have h1 := (h.inv.held u i).mp hu
  rw [h.status u]
  cases hp : s.pc u with
  | idle => simp [hp, PC.cell] at h1
  | start c => simp [hp, PC.cell] at h1
  | loaded c o v => simp [hp, PC.cell] at h1
  | linkRead c o v n => simp [hp, PC.cell] at h1
  | holds c i => cases c <;> simp [PC.status, Status.inTransit]
  | filled c i v => cases c <;> simp [PC.status, Status.inTransit]
  | pLoaded c i v o => cases c <;> simp [PC.status, Status.inTransit]
  | pLinked c i v o => cases c <;> simp [PC.status, Status.inTransit]

/-- the load of a list head in `_pop`, from the loop entry or after a failed compare-and-swap -/
theorem sim_load (hc : cap ≤ UNDEF) (h : Sim cap s a L hl) (c : Call α)
    (hst : (s.pc t).status s = .called c) (hcell : (s.pc t).cell = none) :
    ∃ a', SpecRun cap a [] a' ∧
      Sim cap { s with pc := upd s.pc t (.loaded c (s.hd c.src) (s.ver c.src)) } a' L hl := by
  have hloc : Local { s with pc := upd s.pc t (.loaded c (s.hd c.src) (s.ver c.src)) } t := by
    simp [Local, h.inv.tag]
  by_cases hu : (s.hd c.src).idx = UNDEF
  · refine ⟨{ a with st := upd a.st t (.done c c.failRes) }, ?_, ?_⟩
    · apply SpecRun.single
      have hL := (list_empty_iff h.inv hc c.src).mp hu
      have hst' : a.st t = .called c := by rw [h.status, hst]
      cases c with
      | push x =>
        refine SpecStep.pushFull a t x (hl.map Prod.fst) hst' h.inv.nodup ?_ ?_ ?_
        · intro hm
          obtain ⟨⟨u, i⟩, hm1, hm2⟩ := List.mem_map.mp hm
          simp only at hm2
          subst hm2
          have := (h.inv.held _ i).mp hm1
          simp [hcell] at this
        · intro u hm
          obtain ⟨⟨u', i⟩, hm1, hm2⟩ := List.mem_map.mp hm
          simp only at hm2
          subst hm2
          exact transit_of_held h hm1
        · have hp := h.inv.perm.length_eq
          simp only [Call.src] at hL
          simp [hL] at hp
          rw [h.stack]
          simp
          omega
      | pop =>
        refine SpecStep.popEmpty a t hst' ?_
        rw [h.stack]
        simp only [Call.src] at hL
        simp [hL]
    · have := sim_pc (t := t) h (.loaded c (s.hd c.src) (s.ver c.src)) (by rw [hcell]; rfl) hloc
      simpa [PC.status, hu] using this
  · refine ⟨a, SpecRun.nil a, ?_⟩
    exact sim_pc' h _ (by rw [hcell]; rfl) hloc (by rw [hst]; simp [PC.status, hu])

/-- successful compare-and-swap of `_pop`: the invariant -/
theorem inv_popCas (h : Inv cap s L hl) (c : Call α) (n : Nat) {r : List Nat} (hnc : (s.pc t).cell = none)
    (hL : L c.src = (s.hd c.src).idx :: r) (hch : Chain s.nxt n r) :
    Inv cap { s with
        hd := upd s.hd c.src ((s.hd c.src).bump n)
        ver := upd s.ver c.src (s.ver c.src + 1)
        pc := upd s.pc t (.holds c (s.hd c.src).idx) }
      (upd L c.src r) ((t, (s.hd c.src).idx) :: hl) := by
  refine ⟨?_, ?_, ?_, ?_, ?_, ?_⟩
  · intro w
    by_cases hw : w = c.src
    · subst hw; simpa [Head.bump] using hch
    · simpa [hw] using h.chain w
  · intro u i
    simp only [List.mem_cons, h.held]
    by_cases hu : u = t
    · subst hu; rw [hnc]; simp [PC.cell, eq_comm]
    · simp [hu]
  · simp only [List.map_cons, List.nodup_cons]
    refine ⟨?_, h.nodup⟩
    intro hm
    obtain ⟨⟨u, i⟩, hm1, hm2⟩ := List.mem_map.mp hm
    simp only at hm2
    subst hm2
    have := (h.held _ i).mp hm1
    simp [hnc] at this
  · refine List.Perm.trans ?_ h.perm
    cases hw : c.src
    · rw [hw] at hL
      simp only [upd_same, List.map_cons]
      rw [hL]
      simp only [upd_other _ _ (by decide : Which.free ≠ Which.head)]
      simp only [List.cons_append]
      exact List.perm_middle
    · rw [hw] at hL
      simp only [upd_same, List.map_cons]
      rw [hL]
      simp only [upd_other _ _ (by decide : Which.head ≠ Which.free)]
      refine List.perm_middle.trans ?_
      rw [List.append_assoc, List.append_assoc, List.cons_append]
      exact List.perm_middle.symm
  · intro w
    by_cases hw : w = c.src
    · subst hw
      have := h.tag c.src
      simp only [upd_same, Head.bump]
      rw [this]
      unfold TAGS
      omega
    · simpa [hw] using h.tag w
  · intro u
    by_cases hu : u = t
    · subst hu; simp [Local]
    · have hl := h.loc u
      simp only [Local, hu, ne_eq, not_false_eq_true, upd_other] at hl ⊢
      cases hpu : s.pc u with
      | idle => trivial
      | start c' => trivial
      | loaded c' o v =>
        simp only [hpu] at hl ⊢
        by_cases hw : c'.src = c.src
        · rw [hw] at hl ⊢
          simp only [upd_same]
          exact ⟨by omega, hl.2.1, by omega⟩
        · simpa [hw] using hl
      | linkRead c' o v n' =>
        simp only [hpu] at hl ⊢
        by_cases hw : c'.src = c.src
        · rw [hw] at hl ⊢
          simp only [upd_same]
          exact ⟨by omega, hl.2.1, by omega, hl.2.2.2.1, by omega⟩
        · simpa [hw] using hl
      | holds c' i => trivial
      | filled c' i v => simpa only [hpu] using hl
      | pLoaded c' i v o => simpa only [hpu] using hl
      | pLinked c' i v o => simpa only [hpu] using hl

/-- successful compare-and-swap of `_pop` -/
theorem sim_popCas (h : Sim cap s a L hl) (c : Call α) (orig : Head)
    (ver n : Nat) (hp : s.pc t = .linkRead c orig ver n) (hf : Fresh s t)
    (hcas : s.hd c.src = orig) :
    ∃ a' L' hl', SpecRun cap a [] a' ∧
      Sim cap { s with hd := upd s.hd c.src (orig.bump n),
                       ver := upd s.ver c.src (s.ver c.src + 1),
                       pc := upd s.pc t (.holds c orig.idx) } a' L' hl' := by
  have hloc := h.inv.loc t
  simp only [Local, hp] at hloc
  obtain ⟨hle, haba, _, hne, hlink⟩ := hloc
  simp only [Fresh, hp] at hf
  -- equal tags and no full turn of the counter: the list was not touched since the load
  have hver : ver = s.ver c.src := by
    have h1 := h.inv.tag c.src
    rw [hcas, haba] at h1
    unfold TAGS at *
    omega
  have hlink := hlink hver
  subst hcas
  obtain ⟨r, hL, hch⟩ := list_cons h.inv c.src hne
  rw [hlink] at hch
  have hnc : (s.pc t).cell = none := by rw [hp]; rfl
  have hInv := inv_popCas h.inv c n (t := t) hnc hL hch
  have hstt : a.st t = .called c := by rw [h.status, hp]; rfl
  have hother : ∀ u, u ≠ t → a.st u = (s.pc u).status s := fun u _ => h.status u
  cases c with
  | push x =>
    refine ⟨a, _, _, SpecRun.nil a, hInv, ?_, ?_⟩
    · simpa [Call.src] using h.stack
    · intro u
      by_cases hu : u = t
      · subst hu; simp [hstt, PC.status]
      · simp only [hu, ne_eq, not_false_eq_true, upd_other]
        rw [hother u hu]
        cases s.pc u with
        | holds c i => cases c <;> rfl
        | filled c i v => cases c <;> rfl
        | pLoaded c i v o => cases c <;> rfl
        | pLinked c i v o => cases c <;> rfl
        | _ => rfl
  | pop =>
    simp only [Call.src] at hL
    refine ⟨⟨r.map s.data, upd a.st t (.done .pop (.popped (some (s.data (s.hd .head).idx))))⟩,
      _, _, SpecRun.single (SpecStep.pop a t _ _ hstt ?_), hInv, ?_, ?_⟩
    · rw [h.stack, hL]; rfl
    · simp [Call.src]
    · intro u
      by_cases hu : u = t
      · subst hu; simp [PC.status, Call.src]
      · simp only [hu, ne_eq, not_false_eq_true, upd_other]
        rw [hother u hu]
        cases s.pc u with
        | holds c i => cases c <;> rfl
        | filled c i v => cases c <;> rfl
        | pLoaded c i v o => cases c <;> rfl
        | pLinked c i v o => cases c <;> rfl
        | _ => rfl

/-- successful compare-and-swap of `_push`: the invariant -/
theorem inv_pushCas (h : Inv cap s L hl) (c : Call α) (i : Nat) (hcell : (s.pc t).cell = some i)
    (hlink : s.nxt i = (s.hd c.dst).idx) :
    Inv cap { s with
        hd := upd s.hd c.dst ((s.hd c.dst).bump i)
        ver := upd s.ver c.dst (s.ver c.dst + 1)
        pc := upd s.pc t .idle }
      (upd L c.dst (i :: L c.dst)) (hl.erase (t, i)) := by
  have hmem : (t, i) ∈ hl := (h.held t i).mpr hcell
  have hperm : hl.Perm ((t, i) :: hl.erase (t, i)) := List.perm_cons_erase hmem
  have hnodup : (((t, i) :: hl.erase (t, i)).map Prod.fst).Nodup :=
    ((hperm.map Prod.fst).nodup_iff).mp h.nodup
  refine ⟨?_, ?_, ?_, ?_, ?_, ?_⟩
  · intro w
    by_cases hw : w = c.dst
    · subst hw
      simp only [upd_same, Head.bump, Chain, true_and]
      rw [hlink]; exact h.chain c.dst
    · simpa [hw] using h.chain w
  · intro u j
    simp only [List.map_cons, List.nodup_cons] at hnodup
    by_cases hu : u = t
    · subst hu
      simp only [upd_same, PC.cell, reduceCtorEq, iff_false]
      intro hm
      exact hnodup.1 (List.mem_map.mpr ⟨_, hm, rfl⟩)
    · simp only [hu, ne_eq, not_false_eq_true, upd_other]
      rw [← h.held u j, hperm.mem_iff]
      simp [hu]
  · simp only [List.map_cons, List.nodup_cons] at hnodup
    exact hnodup.2
  · refine List.Perm.trans ?_ h.perm
    have hp2 : (hl.map Prod.snd).Perm (i :: (hl.erase (t, i)).map Prod.snd) := hperm.map Prod.snd
    cases hw : c.dst
    · simp only [upd_same]
      simp only [upd_other _ _ (by decide : Which.free ≠ Which.head)]
      simp only [List.cons_append]
      refine List.Perm.trans List.perm_middle.symm ?_
      exact List.Perm.append_left _ hp2.symm
    · simp only [upd_same]
      simp only [upd_other _ _ (by decide : Which.head ≠ Which.free)]
      refine List.Perm.trans ?_ (List.Perm.append_left _ hp2.symm)
      refine List.Perm.trans ?_ List.perm_middle.symm
      rw [List.append_assoc, List.append_assoc, List.cons_append]
      exact List.perm_middle
  · intro w
    by_cases hw : w = c.dst
    · subst hw
      have := h.tag c.dst
      simp only [upd_same, Head.bump]
      rw [this]
      unfold TAGS
      omega
    · simpa [hw] using h.tag w
  · intro u
    by_cases hu : u = t
    · subst hu; simp [Local]
    · have hl := h.loc u
      simp only [Local, hu, ne_eq, not_false_eq_true, upd_other] at hl ⊢
      cases hpu : s.pc u with
      | idle => trivial
      | start c' => trivial
      | loaded c' o v =>
        simp only [hpu] at hl ⊢
        by_cases hw : c'.src = c.dst
        · rw [hw] at hl ⊢
          simp only [upd_same]
          exact ⟨by omega, hl.2.1, by omega⟩
        · simpa [hw] using hl
      | linkRead c' o v n' =>
        simp only [hpu] at hl ⊢
        by_cases hw : c'.src = c.dst
        · rw [hw] at hl ⊢
          simp only [upd_same]
          exact ⟨by omega, hl.2.1, by omega, hl.2.2.2.1, by omega⟩
        · simpa [hw] using hl
      | holds c' i => trivial
      | filled c' i v => simpa only [hpu] using hl
      | pLoaded c' i v o => simpa only [hpu] using hl
      | pLinked c' i v o => simpa only [hpu] using hl

/-- successful compare-and-swap of `_push` -/
theorem sim_pushCas (h : Sim cap s a L hl) (c : Call α) (i : Nat) (v : α) (orig : Head)
    (hp : s.pc t = .pLinked c i v orig) (hcas : s.hd c.dst = orig) :
    ∃ a' L' hl', SpecRun cap a [.ret t c (c.okRes v)] a' ∧
      Sim cap { s with hd := upd s.hd c.dst (orig.bump i),
                       ver := upd s.ver c.dst (s.ver c.dst + 1),
                       pc := upd s.pc t .idle } a' L' hl' := by
  have hloc := h.inv.loc t
  simp only [Local, hp] at hloc
  obtain ⟨hval, hlink⟩ := hloc
  have hcell : (s.pc t).cell = some i := by rw [hp]; rfl
  have hmem : (t, i) ∈ hl := (h.inv.held t i).mpr hcell
  have hperm : hl.Perm ((t, i) :: hl.erase (t, i)) := List.perm_cons_erase hmem
  have hnodup : (((t, i) :: hl.erase (t, i)).map Prod.fst).Nodup :=
    ((hperm.map Prod.fst).nodup_iff).mp h.inv.nodup
  subst hcas
  have hInv := inv_pushCas h.inv c i (t := t) hcell hlink
  have hother : ∀ u, u ≠ t → a.st u = (s.pc u).status s := fun u _ => h.status u
  cases c with
  | push x =>
    obtain ⟨hv, hd⟩ := hval
    have hstt : a.st t = .called (.push x) := by rw [h.status, hp]; rfl
    have hlen : a.l.length < cap := by
      have h1 := h.inv.perm.length_eq
      have h2 := hperm.length_eq
      rw [h.stack]
      simp at h1 h2 ⊢
      omega
    refine ⟨⟨x :: a.l, upd (upd a.st t (.done (.push x) (.pushed true))) t .idle⟩, _, _, ?_, hInv, ?_, ?_⟩
    · refine SpecRun.cons (SpecStep.push a t x hstt hlen) ?_
      refine SpecRun.single ?_
      exact SpecStep.ret _ t (.push x) (.pushed true) (by simp)
    · simp [Call.dst, h.stack, hd]
    · intro u
      by_cases hu : u = t
      · subst hu; simp [PC.status]
      · simp only [hu, ne_eq, not_false_eq_true, upd_other]
        rw [hother u hu]
        cases s.pc u with
        | holds c i => cases c <;> rfl
        | filled c i v => cases c <;> rfl
        | pLoaded c i v o => cases c <;> rfl
        | pLinked c i v o => cases c <;> rfl
        | _ => rfl
  | pop =>
    have hstt : a.st t = .done .pop (.popped (some v)) := by rw [h.status, hp]; rfl
    refine ⟨{ a with st := upd a.st t .idle }, _, _, SpecRun.single ?_, hInv, ?_, ?_⟩
    · exact SpecStep.ret a t .pop (.popped (some v)) hstt
    · simp [Call.dst, h.stack]
    · intro u
      by_cases hu : u = t
      · subst hu; simp [PC.status]
      · simp only [hu, ne_eq, not_false_eq_true, upd_other]
        rw [hother u hu]
        cases s.pc u with
        | holds c i => cases c <;> rfl
        | filled c i v => cases c <;> rfl
        | pLoaded c i v o => cases c <;> rfl
        | pLinked c i v o => cases c <;> rfl
        | _ => rfl

/-- the write of an element into the owned cell (push) -/
theorem sim_write (h : Sim cap s a L hl) (x : α) (i : Nat) (hp : s.pc t = .holds (.push x) i) :
    Sim cap { s with data := upd s.data i x, pc := upd s.pc t (.filled (.push x) i x) } a L hl := by
  have hcell : (s.pc t).cell = some i := by rw [hp]; rfl
  have hne : ∀ u j, u ≠ t → (s.pc u).cell = some j → j ≠ i := by
    intro u j hu hj e
    subst e
    exact hu (h.inv.cell_inj hj hcell)
  refine ⟨⟨h.inv.chain, ?_, h.inv.nodup, h.inv.perm, h.inv.tag, ?_⟩, ?_, ?_⟩
  · intro u j
    rw [h.inv.held]
    by_cases hu : u = t
    · subst hu; rw [hcell]; simp [PC.cell]
    · simp [hu]
  · intro u
    by_cases hu : u = t
    · subst hu; simp [Local, valOK]
    · have hl := h.inv.loc u
      have hn := fun j => hne u j hu
      simp only [Local, hu, ne_eq, not_false_eq_true, upd_other] at hl ⊢
      cases hpu : s.pc u with
      | idle => trivial
      | start c' => trivial
      | loaded c' o v => simpa only [hpu] using hl
      | linkRead c' o v n' => simpa only [hpu] using hl
      | holds c' i => trivial
      | filled c' j v =>
        have := hn j (by rw [hpu]; rfl)
        cases c' <;> simpa [hpu, valOK, this] using hl
      | pLoaded c' j v o =>
        have := hn j (by rw [hpu]; rfl)
        cases c' <;> simpa [hpu, valOK, this] using hl
      | pLinked c' j v o =>
        have := hn j (by rw [hpu]; rfl)
        cases c' <;> simpa [hpu, valOK, this] using hl
  · rw [h.stack]
    apply List.map_congr_left
    intro j hj
    have : j ≠ i := by
      intro e
      subst e
      exact h.inv.cell_not_mem hcell .head hj
    simp [this]
  · intro u
    by_cases hu : u = t
    · subst hu; rw [h.status, hp]; simp [PC.status]
    · have hn := fun j => hne u j hu
      simp only [hu, ne_eq, not_false_eq_true, upd_other]
      rw [h.status]
      cases hpu : s.pc u with
      | holds c j =>
        have := hn j (by rw [hpu]; rfl)
        cases c <;> simp [PC.status, this]
      | filled c i v => cases c <;> rfl
      | pLoaded c i v o => cases c <;> rfl
      | pLinked c i v o => cases c <;> rfl
      | _ => rfl

/-- the write of the link field of the owned node -/
theorem sim_link (h : Sim cap s a L hl) (c : Call α) (v : α) (orig : Head) (i : Nat)
    (hp : s.pc t = .pLoaded c i v orig) :
    Sim cap { s with nxt := upd s.nxt i orig.idx, pc := upd s.pc t (.pLinked c i v orig) } a L hl := by
  have hcell : (s.pc t).cell = some i := by rw [hp]; rfl
  have hne : ∀ u j, u ≠ t → (s.pc u).cell = some j → j ≠ i := by
    intro u j hu hj e
    subst e
    exact hu (h.inv.cell_inj hj hcell)
  have hloc := h.inv.loc t
  simp only [Local, hp] at hloc
  refine ⟨⟨?_, ?_, h.inv.nodup, h.inv.perm, h.inv.tag, ?_⟩, h.stack, ?_⟩
  · intro w
    refine chain_congr (h.inv.chain w) ?_
    intro j hj
    have : j ≠ i := by
      intro e
      subst e
      exact h.inv.cell_not_mem hcell w hj
    simp [this]
  · intro u j
    rw [h.inv.held]
    by_cases hu : u = t
    · subst hu; rw [hcell]; simp [PC.cell]
    · simp [hu]
  · intro u
    by_cases hu : u = t
    · subst hu
      simp only [Local, upd_same, and_true]
      cases c <;> simpa [valOK] using hloc
    · have hl := h.inv.loc u
      have hn := fun j => hne u j hu
      simp only [Local, hu, ne_eq, not_false_eq_true, upd_other] at hl ⊢
      cases hpu : s.pc u with
      | idle => trivial
      | start c' => trivial
      | loaded c' o v => simpa only [hpu] using hl
      | linkRead c' o v n' =>
        simp only [hpu] at hl ⊢
        refine ⟨hl.1, hl.2.1, hl.2.2.1, hl.2.2.2.1, ?_⟩
        intro hv
        have h1 := hl.2.2.1 hv
        have h2 := hl.2.2.2.2 hv
        have h3 : (s.hd c'.src).idx ≠ UNDEF := by rw [h1]; exact hl.2.2.2.1
        obtain ⟨r, hL, _⟩ := list_cons h.inv c'.src h3
        have : o.idx ≠ i := by
          intro e
          refine h.inv.cell_not_mem hcell c'.src ?_
          rw [hL, h1, e]
          simp
        simpa [this] using h2
      | holds c' i => trivial
      | filled c' j v => cases c' <;> simpa [hpu, valOK] using hl
      | pLoaded c' j v o => cases c' <;> simpa [hpu, valOK] using hl
      | pLinked c' j v o =>
        have := hn j (by rw [hpu]; rfl)
        cases c' <;> simpa [hpu, valOK, this] using hl
  · intro u
    by_cases hu : u = t
    · subst hu; rw [h.status, hp]; cases c <;> simp [PC.status]
    · simp only [hu, ne_eq, not_false_eq_true, upd_other]
      rw [h.status]
      cases hpu : s.pc u with
      | holds c j => cases c <;> rfl
      | filled c i v => cases c <;> rfl
      | pLoaded c i v o => cases c <;> rfl
      | pLinked c i v o => cases c <;> rfl
      | _ => rfl

/-- Every step of the implementation is matched by the atomic stack. -/
theorem sim_step (hc : cap ≤ UNDEF) (h : Sim cap s a L hl) (hf : Fresh s t) {act : Act α}
    {s' : State α} {o : List (Obs α)} (hs : step s t act = some (s', o)) :
    ∃ a' L' hl', SpecRun cap a o a' ∧ Sim cap s' a' L' hl' := by
  have hloc := h.inv.loc t
  cases act with
  | call c =>
    cases hp : s.pc t with
    | idle =>
      simp only [step, hp, Option.some.injEq, Prod.mk.injEq] at hs
      obtain ⟨rfl, rfl⟩ := hs
      refine ⟨_, L, hl, SpecRun.single (SpecStep.inv a t c ?_),
        sim_pc h (.start c) (by rw [hp]; rfl) (by simp [Local])⟩
      rw [h.status, hp]; rfl
    | _ => simp [step, hp] at hs
  | go sp =>
    cases hp : s.pc t with
    | idle => simp [step, hp] at hs
    | start c =>
      simp only [step, hp, Option.some.injEq, Prod.mk.injEq] at hs
      obtain ⟨rfl, rfl⟩ := hs
      obtain ⟨a', h1, h2⟩ := sim_load (t := t) hc h c (by rw [hp]; rfl) (by rw [hp]; rfl)
      exact ⟨a', L, hl, h1, h2⟩
    | loaded c orig ver =>
      simp only [Local, hp] at hloc
      simp only [step, hp] at hs
      split at hs
      · rename_i hu
        simp only [Option.some.injEq, Prod.mk.injEq] at hs
        obtain ⟨rfl, rfl⟩ := hs
        refine ⟨_, L, hl, SpecRun.single (SpecStep.ret a t c c.failRes ?_),
          sim_pc h .idle (by rw [hp]; rfl) (by simp [Local])⟩
        rw [h.status, hp]; simp [PC.status, hu]
      · rename_i hu
        simp only [Option.some.injEq, Prod.mk.injEq] at hs
        obtain ⟨rfl, rfl⟩ := hs
        refine ⟨a, L, hl, SpecRun.nil a, sim_pc' h _ (by rw [hp]; rfl) ?_ ?_⟩
        · simp only [Local, upd_same]
          exact ⟨hloc.1, hloc.2.1, hloc.2.2, hu, by simp⟩
        · rw [hp]; simp [PC.status, hu]
    | linkRead c orig ver n =>
      simp only [step, hp] at hs
      split at hs
      · rename_i hcas
        simp only [Option.some.injEq, Prod.mk.injEq] at hs
        obtain ⟨rfl, rfl⟩ := hs
        exact sim_popCas h c orig ver n hp hf hcas.1
      · simp only [Option.some.injEq, Prod.mk.injEq] at hs
        obtain ⟨rfl, rfl⟩ := hs
        obtain ⟨a', h1, h2⟩ := sim_load (t := t) hc h c (by rw [hp]; rfl) (by rw [hp]; rfl)
        exact ⟨a', L, hl, h1, h2⟩
    | holds c i =>
      cases c with
      | push x =>
        simp only [step, hp, Option.some.injEq, Prod.mk.injEq] at hs
        obtain ⟨rfl, rfl⟩ := hs
        exact ⟨a, L, hl, SpecRun.nil a, sim_write h x i hp⟩
      | pop =>
        simp only [step, hp, Option.some.injEq, Prod.mk.injEq] at hs
        obtain ⟨rfl, rfl⟩ := hs
        refine ⟨a, L, hl, SpecRun.nil a, sim_pc' h _ (by rw [hp]; rfl) ?_ ?_⟩
        · simp [Local, valOK]
        · rw [hp]; simp [PC.status]
    | filled c i v =>
      simp only [Local, hp] at hloc
      simp only [step, hp, Option.some.injEq, Prod.mk.injEq] at hs
      obtain ⟨rfl, rfl⟩ := hs
      refine ⟨a, L, hl, SpecRun.nil a, sim_pc' h _ (by rw [hp]; rfl) ?_ ?_⟩
      · cases c <;> simpa [Local, valOK] using hloc
      · rw [hp]; cases c <;> simp [PC.status]
    | pLoaded c i v orig =>
      simp only [step, hp, Option.some.injEq, Prod.mk.injEq] at hs
      obtain ⟨rfl, rfl⟩ := hs
      exact ⟨a, L, hl, SpecRun.nil a, sim_link h c v orig i hp⟩
    | pLinked c i v orig =>
      simp only [Local, hp] at hloc
      simp only [step, hp] at hs
      split at hs
      · rename_i hcas
        simp only [Option.some.injEq, Prod.mk.injEq] at hs
        obtain ⟨rfl, rfl⟩ := hs
        exact sim_pushCas h c i v orig hp hcas.1
      · simp only [Option.some.injEq, Prod.mk.injEq] at hs
        obtain ⟨rfl, rfl⟩ := hs
        refine ⟨a, L, hl, SpecRun.nil a, sim_pc' h _ (by rw [hp]; rfl) ?_ ?_⟩
        · cases c <;> simpa [Local, valOK] using hloc.1
        · rw [hp]; cases c <;> simp [PC.status]

end steps

theorem sim_run {cap : Nat} (hc : cap ≤ UNDEF) {sched : Sched α} {s s' : State α} {a : Abs α}
    {L : Which → List Nat} {hl : List (Nat × Nat)} {hist : List (Obs α)}
    (h : Sim cap s a L hl) (hw : NoWrap s sched) (hr : run s sched = some (s', hist)) :
    ∃ a' L' hl', SpecRun cap a hist a' ∧ Sim cap s' a' L' hl' := by
  induction sched generalizing s a L hl hist with
  | nil =>
    simp only [run, Option.some.injEq, Prod.mk.injEq] at hr
    obtain ⟨rfl, rfl⟩ := hr
    exact ⟨a, L, hl, SpecRun.nil a, h⟩
  | cons x rest ih =>
    obtain ⟨t, act⟩ := x
    simp only [run] at hr
    cases hs : step s t act with
    | none => simp [hs] at hr
    | some p =>
      obtain ⟨s1, o⟩ := p
      simp only [hs] at hr
      cases hr1 : run s1 rest with
      | none => simp [hr1] at hr
      | some q =>
        obtain ⟨s2, h2⟩ := q
        simp only [hr1, Option.some.injEq, Prod.mk.injEq] at hr
        obtain ⟨rfl, rfl⟩ := hr
        obtain ⟨a1, L1, hl1, hr1', hsim1⟩ := sim_step hc h hw.1 hs
        obtain ⟨a2, L2, hl2, hr2', hsim2⟩ := ih hsim1 (hw.2 s1 o hs) hr1
        exact ⟨a2, L2, hl2, hr1'.trans hr2', hsim2⟩

end Verif.LFS
