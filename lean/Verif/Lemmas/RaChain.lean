import Verif.Model.RaChain
import Verif.Lemmas.Memory
import Verif.Lemmas.Sequencer

/-! The invariant of the pipeline on release/acquire memory. -/

namespace Verif.RaChain
open Verif Verif.Disr Verif.RA

variable {V : Type}

/-- First sequence whose slot the processor has not touched. -/
def CPc.pos : CPc → Int
  | .wait nx | .batch nx _ => nx
  | .handle nx _ => nx + 1

/-- Last sequence that is finished. -/
def CPc.done : CPc → Int
  | .wait nx | .batch nx _ | .handle nx _ => nx - 1

/-- Last sequence it may handle. -/
def CPc.avail : CPc → Int
  | .wait nx => nx - 1
  | .batch _ av | .handle _ av => av

theorem slot_ne {k : Nat} (hk : k ≤ 30) {x y : Int} (h1 : x < y) (h2 : y < x + 2 ^ k) : slotIdx k x ≠ slotIdx k y := by
  rw [slotIdx_eq hk, slotIdx_eq hk]
  have hp : (0 : Int) < 2 ^ k := Int.pow_pos (by decide)
  have e1 := Int.emod_nonneg x (Int.ne_of_gt hp)
  have e2 := Int.emod_nonneg y (Int.ne_of_gt hp)
  intro h
  have h3 : x % 2 ^ k = y % 2 ^ k := by omega
  have h4 : (y - x) % 2 ^ k = 0 := Int.emod_eq_emod_iff_emod_sub_eq_zero.mp h3.symm
  rw [Int.emod_eq_of_lt (by omega) (by omega)] at h4
  omega

theorem slot_wrap {k : Nat} (hk : k ≤ 30) (x : Int) : slotIdx k (x - 2 ^ k) = slotIdx k x := by
  rw [slotIdx_eq hk, slotIdx_eq hk, Int.sub_emod_right]

/-- Everything that happened to the variable is known. -/
def Cov (m : Mem V) (u : View) (z : Nat) : Prop := (m.writes z).length ≤ u.w z ∧ ∀ t, m.reads z t ≤ u.r z t

/-- The pipeline as a ring of `N + 1` stages, stage 0 being the producer (which is stage `N + 1` too, one turn later).  `P j`: first sequence whose slot stage `j` has
not touched; `A j`: last one it may touch; `D j`: last one it has finished. -/
structure Core (k N : Nat) (m : Mem V) (P A D : Nat → Int) : Prop where
  wrapP : P 0 = P (N + 1) + 2 ^ k
  wrapA : A 0 = A (N + 1) + 2 ^ k
  ordA : ∀ j ≤ N, P (j + 1) ≤ A (j + 1) + 1 ∧ A (j + 1) ≤ D j
  ordD : ∀ j ≤ N, D j < P j
  cover : ∀ j ≤ N, ∀ x, P (j + 1) ≤ x → x ≤ A j → Cov m (m.view j) (slotIdx k x)
  msgs : ∀ j ≤ N, ∀ g ∈ m.msgs j, g.val ≤ D j ∧ ∀ x, P (j + 1) ≤ x → x ≤ g.val → Cov m g.view (slotIdx k x)

variable {k N : Nat} {m : Mem V} {P A D : Nat → Int}

theorem Core.D_mono (h : Core k N m P A D) : ∀ {a b : Nat}, a ≤ b → b ≤ N → D b ≤ D a := by
  intro a b hab
  induction hab with
  | refl => intro _; exact Int.le_refl _
  | @step b hb ih =>
    intro hN
    have h1 := ih (by omega)
    have h2 := h.ordD (b + 1) hN
    have h3 := h.ordA b (by omega)
    show D (b + 1) ≤ D a
    omega

/-- What a stage has finished does not fall behind what the producer may take again. -/
theorem Core.D_ge (h : Core k N m P A D) {j : Nat} (hj : j ≤ N) : P (N + 1) ≤ D j + 1 := by
  have h1 := h.ordA N (Nat.le_refl _)
  have h2 := h.D_mono hj (Nat.le_refl _)
  omega

theorem Core.A_le (h : Core k N m P A D) {i j : Nat} (hij : j < i) (hi : i ≤ N + 1) : A i ≤ D j := by
  obtain ⟨i, rfl⟩ : ∃ i', i = i' + 1 := ⟨i - 1, by omega⟩
  have h1 := (h.ordA i (by omega)).2
  have h2 := h.D_mono (a := j) (b := i) (by omega) (by omega)
  omega

theorem Core.P_gt (h : Core k N m P A D) {j : Nat} (hj : j ≤ N + 1) : P (N + 1) ≤ P j := by
  rcases Nat.lt_or_ge N j with hN | hN
  · have : j = N + 1 := by omega
    subst this; exact Int.le_refl _
  · have h1 := h.D_ge hN
    have h2 := h.ordD j hN
    omega

/-- The slot a stage works on belongs to nobody else. -/
theorem Core.apart (hk : k ≤ 30) (h : Core k N m P A D) {i : Nat} (hi : i ≤ N) {x : Int} (hD : D i < x) (hP : x < P i) (hA : x ≤ A i) {j : Nat} (hj : j ≤ N) {y : Int}
    (hy : P (j + 1) ≤ y) (hyA : (j ≠ i ∧ y ≤ A j) ∨ y ≤ D j) : slotIdx k y ≠ slotIdx k x := by
  have w1 := h.wrapP
  have w2 := h.wrapA
  have hp : (0 : Int) < 2 ^ k := Int.pow_pos (by decide)
  have hy0 := h.P_gt (j := j + 1) (by omega)
  have hx1 : x ≤ D 0 + 2 ^ k ∧ x < P 0 := by
    rcases Nat.eq_zero_or_pos i with rfl | hi0
    · have := h.A_le (i := N + 1) (j := 0) (by omega) (by omega)
      omega
    · have h1 := h.A_le (i := i) (j := 0) hi0 (by omega)
      have h2 := h.ordD 0 (by omega)
      omega
  have hx0 := h.D_ge hi
  have hN1 := h.A_le (i := N + 1) (j := i) (by omega) (by omega)
  have hND := (h.ordA N (Nat.le_refl _)).1
  -- after or before
  rcases Nat.lt_trichotomy j i with hji | hji | hji
  · -- an earlier stage: later sequences
    have hlt : x < y := by
      rcases Nat.lt_or_ge (j + 1) i with hlt | hge
      · have h1 := h.A_le (i := i) (j := j + 1) hlt (by omega)
        have h2 := h.ordD (j + 1) (by omega)
        omega
      · have : j + 1 = i := by omega
        subst this; omega
    have hle : y < x + 2 ^ k := by
      rcases Nat.eq_zero_or_pos j with rfl | hj0
      · have hd0 := h.ordD 0 (by omega)
        rcases hyA with ⟨_, hyA⟩ | hyA <;> omega
      · have h1 := h.A_le (i := j) (j := 0) hj0 (by omega)
        have h2 := h.ordD 0 (by omega)
        have h3 := h.D_mono (a := 0) (b := j) (by omega) hj
        rcases hyA with ⟨_, hyA⟩ | hyA <;> omega
    exact (slot_ne hk hlt hle).symm
  · subst hji
    have hlt : y < x := by
      rcases hyA with ⟨hne, _⟩ | hyA
      · exact absurd rfl hne
      · omega
    exact slot_ne hk hlt (by omega)
  · have hlt : y < x := by
      have h1 := h.A_le (i := j) (j := i) hji (by omega)
      have h2 := h.D_mono (a := i) (b := j) (by omega) hj
      rcases hyA with ⟨_, hyA⟩ | hyA <;> omega
    exact slot_ne hk hlt (by omega)

/-- A stage may work on the sequences between what it has finished and what it may touch. -/
theorem Core.owns (h : Core k N m P A D) {i : Nat} (hi : i ≤ N) {x : Int} (hD : D i < x) (hA : x ≤ A i) : Cov m (m.view i) (slotIdx k x) := by
  have := h.ordA i hi
  exact h.cover i hi x (by omega) hA

theorem core_write (hk : k ≤ 30) (h : Core k N m P A D) {i : Nat} (hi : i ≤ N) {x : Int} (hD : D i < x) (hP : x < P i) (hA : x ≤ A i) (v : V) :
    Core k N (m.write i (slotIdx k x) v) P A D := by
  have keep : ∀ j ≤ N, ∀ y, P (j + 1) ≤ y → (j ≠ i ∧ y ≤ A j) ∨ y ≤ D j → ∀ u, Cov m u (slotIdx k y) → Cov (m.write i (slotIdx k x) v) u (slotIdx k y) := by
    intro j hj y hy hyA u hc
    have hne := h.apart hk hi hD hP hA hj hy hyA
    exact ⟨by simp only [Mem.write]; rw [upd_other _ _ hne]; exact hc.1, hc.2⟩
  refine ⟨h.wrapP, h.wrapA, h.ordA, h.ordD, ?_, ?_⟩
  · intro j hj y hy hyA
    by_cases hji : j = i
    · subst hji
      have hc := h.cover j hj y hy hyA
      refine ⟨?_, fun t => ?_⟩
      · simp only [Mem.write, upd_same]
        rw [upd_apply, upd_apply]
        split
        · simp
        · exact hc.1
      · simp only [Mem.write, upd_same]; exact hc.2 t
    · have hv : (m.write i (slotIdx k x) v).view j = m.view j := by simp only [Mem.write]; exact upd_other _ _ hji
      rw [hv]
      exact keep j hj y hy (.inl ⟨hji, hyA⟩) _ (h.cover j hj y hy hyA)
  · intro j hj g hg
    refine ⟨(h.msgs j hj g hg).1, fun y hy hyv => ?_⟩
    have := (h.msgs j hj g hg).1
    exact keep j hj y hy (.inr (by omega)) _ ((h.msgs j hj g hg).2 y hy hyv)

theorem core_read (hk : k ≤ 30) (h : Core k N m P A D) {i : Nat} (hi : i ≤ N) {x : Int} (hD : D i < x) (hP : x < P i) (hA : x ≤ A i) {v : V} {m' : Mem V}
    (hr : m.read i (slotIdx k x) = some (v, m')) : Core k N m' P A D ∧ (m.writes (slotIdx k x)).head? = some v ∧ m'.msgs = m.msgs ∧ m'.writes = m.writes ∧
      (m'.view 0).a = (m.view 0).a := by
  obtain ⟨hv, rfl⟩ := Mem.read_some hr
  refine ⟨?_, hv, rfl, rfl, by dsimp only; rw [upd_apply]; split <;> simp_all⟩
  generalize hrd : upd m.reads (slotIdx k x) (upd (m.reads (slotIdx k x)) i (m.reads (slotIdx k x) i + 1)) = rd
  have keep : ∀ j ≤ N, ∀ y, P (j + 1) ≤ y → (j ≠ i ∧ y ≤ A j) ∨ y ≤ D j → ∀ (vw : Nat → View) u, Cov m u (slotIdx k y) →
      Cov ⟨m.msgs, m.writes, rd, vw⟩ u (slotIdx k y) := by
    intro j hj y hy hyA vw u hc
    have hne := h.apart hk hi hD hP hA hj hy hyA
    refine ⟨hc.1, fun t => ?_⟩
    show rd (slotIdx k y) t ≤ _
    rw [← hrd, upd_other _ _ hne]; exact hc.2 t
  refine ⟨h.wrapP, h.wrapA, h.ordA, h.ordD, ?_, ?_⟩
  · intro j hj y hy hyA
    by_cases hji : j = i
    · subst hji
      have hc := h.cover j hj y hy hyA
      refine ⟨?_, fun t => ?_⟩
      · simp only [upd_same]; exact hc.1
      · show rd (slotIdx k y) t ≤ _
        simp only [upd_same]
        rw [← hrd]
        simp only [upd_apply]
        split
        · next e =>
          rw [e] at hc
          rw [upd_apply]
          split
          · next e2 => subst e2; simp
          · next e2 => rw [upd_apply, if_neg e2]; exact hc.2 t
        · exact hc.2 t
    · have hvw : ∀ u, upd m.view i u j = m.view j := fun u => upd_other _ _ hji
      dsimp only
      rw [hvw]
      exact keep j hj y hy (.inl ⟨hji, hyA⟩) _ _ (h.cover j hj y hy hyA)
  · intro j hj g hg
    refine ⟨(h.msgs j hj g hg).1, fun y hy hyv => ?_⟩
    have := (h.msgs j hj g hg).1
    exact keep j hj y hy (.inr (by omega)) _ _ ((h.msgs j hj g hg).2 y hy hyv)

/-- A stage starts to touch further slots. -/
theorem core_touch (h : Core k N m P A D) {i : Nat} (h1 : 1 ≤ i) (hi : i ≤ N) {v : Int} (hv : P i ≤ v) (hvA : v ≤ A i + 1) : Core k N m (upd P i v) A D := by
  have hge : ∀ j, P j ≤ upd P i v j := by
    intro j; rw [upd_apply]; split
    · next e => rw [e]; exact hv
    · exact Int.le_refl _
  refine ⟨?_, h.wrapA, ?_, ?_, ?_, ?_⟩
  · rw [upd_other _ _ (by omega), upd_other _ _ (by omega)]; exact h.wrapP
  · intro j hj
    refine ⟨?_, (h.ordA j hj).2⟩
    rw [upd_apply]; split
    · next e => rw [e]; exact hvA
    · exact (h.ordA j hj).1
  · intro j hj; have := h.ordD j hj; have := hge j; omega
  · intro j hj x hx hxA; exact h.cover j hj x (Int.le_trans (hge _) hx) hxA
  · intro j hj g hg; exact ⟨(h.msgs j hj g hg).1, fun x hx hxv => (h.msgs j hj g hg).2 x (Int.le_trans (hge _) hx) hxv⟩

/-- A stage finishes. -/
theorem core_done (h : Core k N m P A D) {i : Nat} (_hi : i ≤ N) {v : Int} (hv : D i ≤ v) (hvP : v < P i) : Core k N m P A (upd D i v) := by
  have hge : ∀ j, D j ≤ upd D i v j := by
    intro j; rw [upd_apply]; split
    · next e => rw [e]; exact hv
    · exact Int.le_refl _
  refine ⟨h.wrapP, h.wrapA, ?_, ?_, h.cover, ?_⟩
  · intro j hj; have := h.ordA j hj; have := hge j; omega
  · intro j hj; rw [upd_apply]; split
    · next e => rw [e]; exact hvP
    · exact h.ordD j hj
  · intro j hj g hg
    have := h.msgs j hj g hg
    exact ⟨by have := hge j; omega, this.2⟩

/-- The producer claims. -/
theorem core_claim (h : Core k N m P A D) {v : Int} (hv : P 0 ≤ v) (hvA : v - 2 ^ k ≤ A (N + 1) + 1) : Core k N m (upd (upd P 0 v) (N + 1) (v - 2 ^ k)) A D := by
  have w := h.wrapP
  have hge : ∀ j, P j ≤ upd (upd P 0 v) (N + 1) (v - 2 ^ k) j := by
    intro j; rw [upd_apply]; split
    · next e => rw [e]; omega
    · rw [upd_apply]; split
      · next e => rw [e]; exact hv
      · exact Int.le_refl _
  refine ⟨?_, h.wrapA, ?_, ?_, ?_, ?_⟩
  · rw [upd_same, upd_other _ _ (by omega), upd_same]; omega
  · intro j hj
    refine ⟨?_, (h.ordA j hj).2⟩
    rw [upd_apply]; split
    · next e => rw [e]; exact hvA
    · rw [upd_other _ _ (by omega)]; exact (h.ordA j hj).1
  · intro j hj; have := h.ordD j hj; have := hge j; omega
  · intro j hj x hx hxA; exact h.cover j hj x (Int.le_trans (hge _) hx) hxA
  · intro j hj g hg; exact ⟨(h.msgs j hj g hg).1, fun x hx hxv => (h.msgs j hj g hg).2 x (Int.le_trans (hge _) hx) hxv⟩

/-- The memory after thread `i` has acquired message `g`. -/
def acquired (m : Mem V) (i l n : Nat) (g : Msg) : Mem V := { m with view := upd m.view i (((m.view i).join g.view).see l n) }

theorem cov_acquired {i l n : Nat} {g : Msg} {z : Nat} (h : Cov m (m.view i) z ∨ Cov m g.view z) :
    Cov (acquired m i l n g) ((acquired m i l n g).view i) z := by
  simp only [acquired, Cov, upd_same, View.see_w, View.join_w, View.see_r, View.join_r]
  rcases h with h | h
  · exact ⟨by have := h.1; omega, fun t => by have := h.2 t; omega⟩
  · exact ⟨by have := h.1; omega, fun t => by have := h.2 t; omega⟩

/-- A load makes more known, and lets the stage go on as far as the message says. -/
theorem core_load (h : Core k N m P A D) {i l n : Nat} {g : Msg} {A' : Nat → Int} (hw : A' 0 = A' (N + 1) + 2 ^ k)
    (ho : ∀ j ≤ N, P (j + 1) ≤ A' (j + 1) + 1 ∧ A' (j + 1) ≤ D j) (hother : ∀ j ≤ N, j ≠ i → A' j = A j)
    (hnew : ∀ x, P (i + 1) ≤ x → A i < x → x ≤ A' i → Cov m g.view (slotIdx k x)) : Core k N (acquired m i l n g) P A' D := by
  refine ⟨h.wrapP, hw, ho, h.ordD, ?_, h.msgs⟩
  intro j hj x hx hxA
  by_cases hji : j = i
  · subst hji
    refine cov_acquired ?_
    rcases Int.lt_or_le (A j) x with hlt | hle
    · exact .inr (hnew x hx hlt hxA)
    · exact .inl (h.cover j hj x hx hle)
  · have hv : (acquired m i l n g).view j = m.view j := upd_other _ _ hji
    rw [hv]
    exact h.cover j hj x hx (by rw [← hother j hj hji]; exact hxA)

/-- A stage sets its sequence. -/
theorem core_store (h : Core k N m P A D) {i : Nat} (hi : i ≤ N) {v : Int} (hv : v ≤ D i) : Core k N (m.store i i v) P A D := by
  have hA : v ≤ A i := by
    have h1 := h.ordD i hi
    rcases Nat.eq_zero_or_pos i with rfl | hi0
    · have := (h.ordA N (Nat.le_refl _)).1; have := h.wrapA; have := h.wrapP; omega
    · obtain ⟨i, rfl⟩ : ∃ i', i = i' + 1 := ⟨i - 1, by omega⟩
      have := (h.ordA i (by omega)).1
      omega
  have hview : ∀ j z, Cov m (m.view j) z → Cov (m.store i i v) ((m.store i i v).view j) z := by
    intro j z hc
    refine ⟨?_, fun t => ?_⟩ <;> simp only [Mem.store] <;> rw [upd_apply] <;> split
    · next e => subst e; exact hc.1
    · exact hc.1
    · next e => subst e; exact hc.2 t
    · exact hc.2 t
  refine ⟨h.wrapP, h.wrapA, h.ordA, h.ordD, fun j hj x hx hxA => hview j _ (h.cover j hj x hx hxA), ?_⟩
  intro j hj g hg
  simp only [Mem.store] at hg
  rw [upd_apply] at hg
  split at hg
  · next e =>
    subst e
    rcases List.mem_append.mp hg with hg | hg
    · exact h.msgs j hj g hg
    · simp only [List.mem_singleton] at hg
      subst hg
      exact ⟨hv, fun x hx hxv => h.cover j hj x hx (by show x ≤ A j; have : x ≤ v := hxv; omega)⟩
  · exact h.msgs j hj g hg

/-! ### The states -/

def Pf (k N : Nat) (s : St V) (j : Nat) : Int := if j = 0 then s.nextVal + 1 else if j = N + 1 then s.nextVal + 1 - 2 ^ k else (s.cp j).pos
def Af (k N : Nat) (s : St V) (j : Nat) : Int := if j = 0 then s.cached + 2 ^ k else if j = N + 1 then s.cached else (s.cp j).avail
def Df (s : St V) (j : Nat) : Int := if j = 0 then s.cur else (s.cp j).done

structure Inv (k N : Nat) (s : St V) : Prop where
  core : Core k N s.mem (Pf k N s) (Af k N s) (Df s)
  outside : ∀ j, j = 0 ∨ N < j → s.cp j = .wait 0
  mono : ∀ (i j : Nat) (g h : Msg), i ≤ j → (s.mem.msgs N)[i]? = some g → (s.mem.msgs N)[j]? = some h → g.val ≤ h.val
  newer : ∀ (i : Nat) (g : Msg), (s.mem.view 0).a N ≤ i → (s.mem.msgs N)[i]? = some g → s.cached ≤ g.val
  want : ∀ n, s.pp = .want n → 1 ≤ n
  contNone : ∀ x, s.nextVal < x → s.cont x = none
  contTop : ∀ x v, s.nextVal - 2 ^ k < x → s.cont x = some v → (s.mem.writes (slotIdx k x)).head? = some v

theorem Inv.init (k N : Nat) (v : V) : Inv k N (St.init v) := by
  have hp : (0 : Int) < 2 ^ k := Int.pow_pos (by decide)
  refine ⟨⟨?_, ?_, ?_, ?_, ?_, ?_⟩, fun _ _ => rfl, ?_, ?_, nofun, fun _ _ => rfl, nofun⟩
  · simp [Pf, St.init]
  · simp [Af, St.init]
  · intro j hj
    simp only [Pf, Af, Df, St.init, CPc.pos, CPc.avail, CPc.done]
    (repeat' split) <;> omega
  · intro j hj
    simp only [Pf, Df, St.init, CPc.pos, CPc.done]
    (repeat' split) <;> omega
  · intro j _ x _ _
    exact ⟨Nat.le_refl _, fun _ => Nat.le_refl _⟩
  · intro j _ g hg
    simp only [St.init, Mem.init, List.mem_singleton] at hg
    subst hg
    refine ⟨?_, fun x _ _ => ⟨Nat.le_refl _, fun _ => Nat.le_refl _⟩⟩
    simp only [Df, St.init, CPc.done]
    split <;> omega
  · intro i j g h _ hg hh
    simp only [St.init, Mem.init] at hg hh
    have h1 := List.mem_of_getElem? hg
    have h2 := List.mem_of_getElem? hh
    simp only [List.mem_singleton] at h1 h2
    rw [h1, h2]
  · intro i g _ hg
    have h1 := List.mem_of_getElem? hg
    simp only [St.init, Mem.init, List.mem_singleton] at h1
    rw [h1]; exact Int.le_refl _

variable {s s' : St V}

theorem Inv.cached_le (hi : Inv k N s) : s.cached ≤ s.nextVal ∧ s.nextVal - 2 ^ k ≤ s.cached ∧ s.cur ≤ s.nextVal := by
  have h1 := hi.core.A_le (i := N + 1) (j := 0) (by omega) (by omega)
  have h2 := hi.core.ordD 0 (by omega)
  have h3 := (hi.core.ordA N (Nat.le_refl _)).1
  simp [Af, Df, Pf] at h1 h2 h3
  omega

theorem Inv.stage (hi : Inv k N s) {j : Nat} (h : s.cp j ≠ .wait 0) : 1 ≤ j ∧ j ≤ N := by
  apply Classical.byContradiction
  intro hn
  exact h (hi.outside j (by omega))

theorem Pf_stage {j : Nat} (h1 : 1 ≤ j) (hj : j ≤ N) : Pf k N s j = (s.cp j).pos := by
  simp only [Pf]; rw [if_neg (by omega), if_neg (by omega)]
theorem Af_stage {j : Nat} (h1 : 1 ≤ j) (hj : j ≤ N) : Af k N s j = (s.cp j).avail := by
  simp only [Af]; rw [if_neg (by omega), if_neg (by omega)]
theorem Df_stage {j : Nat} (h1 : 1 ≤ j) : Df s j = (s.cp j).done := by
  simp only [Df]; rw [if_neg (by omega)]

theorem Pf_upd {j : Nat} (h1 : 1 ≤ j) (hj : j ≤ N) {p : CPc} (e1 : s'.nextVal = s.nextVal) (e2 : s'.cp = upd s.cp j p) : Pf k N s' = upd (Pf k N s) j p.pos := by
  funext i
  simp only [Pf, e1, e2, upd_apply]
  (repeat' split) <;> first | rfl | omega
theorem Af_upd {j : Nat} (h1 : 1 ≤ j) (hj : j ≤ N) {p : CPc} (e1 : s'.cached = s.cached) (e2 : s'.cp = upd s.cp j p) : Af k N s' = upd (Af k N s) j p.avail := by
  funext i
  simp only [Af, e1, e2, upd_apply]
  (repeat' split) <;> first | rfl | omega
theorem Df_upd {j : Nat} (h1 : 1 ≤ j) {p : CPc} (e1 : s'.cur = s.cur) (e2 : s'.cp = upd s.cp j p) : Df s' = upd (Df s) j p.done := by
  funext i
  simp only [Df, e1, e2, upd_apply]
  (repeat' split) <;> first | rfl | omega

theorem upd_self {β : Type} (f : Nat → β) (i : Nat) {v : β} (h : v = f i) : upd f i v = f := by
  funext j; rw [upd_apply]; split
  · next e => rw [h, e]
  · rfl

theorem Pf_claim {n : Int} (e1 : s'.nextVal = n) (e2 : s'.cp = s.cp) : Pf k N s' = upd (upd (Pf k N s) 0 (n + 1)) (N + 1) (n + 1 - 2 ^ k) := by
  funext i
  simp only [Pf, e1, e2, upd_apply]
  (repeat' split) <;> first | rfl | omega

theorem claim_ok (hi : Inv k N s) {n : Int} (hn : 1 ≤ n) (hc : s.nextVal + n - 2 ^ k ≤ s.cached) : Inv k N { s with nextVal := s.nextVal + n, pp := .idle } where
  core := by
    have h := core_claim (v := s.nextVal + n + 1) hi.core (by simp [Pf]; omega) (by simp [Af]; omega)
    rw [Pf_claim (s := s) (s' := { s with nextVal := s.nextVal + n, pp := .idle }) (n := s.nextVal + n) rfl rfl]
    exact h
  outside := hi.outside
  mono := hi.mono
  newer := hi.newer
  want := nofun
  contNone := fun x hx => hi.contNone x (by have : s.nextVal + n < x := hx; omega)
  contTop := fun x v hx => hi.contTop x v (by have : s.nextVal + n - 2 ^ k < x := hx; omega)

/-- The producer has read the gating sequence. -/
theorem scan_ok (hk : k ≤ 30) (hi : Inv k N s) {i : Nat} {g : Msg} (hg : (s.mem.msgs N)[i]? = some g) (hle : (s.mem.view 0).a N ≤ i) {q : Int} {pp : PPc}
    (hq : q = s.cached ∨ q = (if g.val < s.nextVal then g.val else s.nextVal)) (hpp : ∀ n, pp = .want n → 1 ≤ n) :
    Inv k N { s with mem := acquired s.mem 0 N i g, cached := q, pp := pp } := by
  have hnew := hi.newer i g hle hg
  have hgm := hi.core.msgs N (Nat.le_refl _) g (List.mem_of_getElem? hg)
  obtain ⟨c1, c2, c3⟩ := hi.cached_le
  have hcq : s.cached ≤ q ∧ q ≤ g.val ∨ q = s.cached := by
    rcases hq with rfl | rfl
    · exact .inr rfl
    · split <;> omega
  have hA : Af k N { s with mem := acquired s.mem 0 N i g, cached := q, pp := pp } = upd (upd (Af k N s) 0 (q + 2 ^ k)) (N + 1) q := by
    funext j
    simp only [Af, upd_apply]
    (repeat' split) <;> first | rfl | omega
  have hAN : Af k N s (N + 1) = s.cached := by simp [Af]
  have hA0 : Af k N s 0 = s.cached + 2 ^ k := by simp [Af]
  have hc1 := hi.core.ordA N (Nat.le_refl _)
  rw [hAN] at hc1
  have hqD : q ≤ Df s N := by omega
  refine ⟨?_, hi.outside, hi.mono, ?_, hpp, hi.contNone, hi.contTop⟩
  · rw [hA]
    refine core_load hi.core ?_ ?_ ?_ ?_
    · rw [upd_same, upd_other _ _ (by omega), upd_same]
    · intro j hj
      rw [upd_apply]
      split
      · next e =>
        have : j = N := by omega
        subst this
        exact ⟨by omega, hqD⟩
      · rw [upd_other _ _ (by omega)]; exact hi.core.ordA j hj
    · intro j hj hj0
      rw [upd_other _ _ (by omega), upd_other _ _ hj0]
    · intro x hx hx1 hx2
      rw [upd_other _ _ (by omega), upd_same] at hx2
      rw [← slot_wrap hk]
      exact hgm.2 (x - 2 ^ k) (by omega) (by omega)
  · intro j h hj hh
    simp only [acquired, upd_same, View.see_a_same, View.join_a] at hj
    have h1 := hi.mono i j g h (by omega) hg hh
    have h2 := hi.newer j h (by omega) hh
    show q ≤ h.val
    omega

theorem write_ok (hk : k ≤ 30) (hi : Inv k N s) {i : Nat} (hiN : i ≤ N) {x : Int} (hD : Df s i < x) (hP : x < Pf k N s i) (hA : x ≤ Af k N s i) (v : V) :
    Inv k N { s with mem := s.mem.write i (slotIdx k x) v, cont := upd s.cont x (some v) } := by
  have hxn : s.nextVal - 2 ^ k < x ∧ x ≤ s.nextVal := by
    have h1 := hi.core.D_ge hiN
    have h2 : x ≤ s.nextVal := by
      rcases Nat.eq_zero_or_pos i with rfl | h0
      · simp [Pf] at hP; omega
      · have h3 := hi.core.A_le (i := i) (j := 0) h0 (by omega)
        have h4 : Df s 0 = s.cur := by simp [Df]
        have := hi.cached_le
        omega
    simp [Pf] at h1
    omega
  refine ⟨core_write hk hi.core hiN hD hP hA v, hi.outside, hi.mono, ?_, hi.want, ?_, ?_⟩
  · intro j h hj hh
    refine hi.newer j h (Nat.le_trans ?_ hj) hh
    simp only [Mem.write]
    rw [upd_apply]; split
    · next e => rw [e]
    · exact Nat.le_refl _
  · intro y hy
    have hy : s.nextVal < y := hy
    exact (upd_other _ _ (by omega)).trans (hi.contNone y hy)
  · intro y w hy hw
    have hy : s.nextVal - 2 ^ k < y := hy
    simp only [Mem.write]
    by_cases e : y = x
    · subst e
      simp only [upd_same] at hw ⊢
      exact hw
    · simp only [upd_other _ _ e] at hw
      have hyn : y ≤ s.nextVal := by
        rcases Int.lt_or_le s.nextVal y with h | h
        · rw [hi.contNone y h] at hw; cases hw
        · exact h
      have hsl : slotIdx k y ≠ slotIdx k x := by
        rcases Int.lt_or_gt_of_ne e with h | h
        · exact slot_ne hk h (by omega)
        · exact (slot_ne hk h (by omega)).symm
      rw [upd_other _ _ hsl]
      exact hi.contTop y w hy hw

/-- A processor sets its sequence to `q`, everything up to `q` finished, and waits for `q + 1`. -/
theorem commit_ok (hN : 1 ≤ N) (hi : Inv k N s) {j : Nat} (h1 : 1 ≤ j) (hj : j ≤ N) {q : Int} (hp : (s.cp j).pos = q + 1) (hd : (s.cp j).done ≤ q) (ha : q ≤ (s.cp j).avail) :
    Inv k N { s with mem := s.mem.store j j q, cp := upd s.cp j (.wait (q + 1)) } := by
  have c0 := core_done hi.core hj (v := q) (by rw [Df_stage h1]; exact hd) (by rw [Pf_stage h1 hj, hp]; omega)
  have c1 := core_store c0 hj (v := q) (by simp)
  -- what it gives up is smaller
  have hA : ∀ i, Af k N { s with mem := s.mem.store j j q, cp := upd s.cp j (.wait (q + 1)) } i ≤ Af k N s i := by
    intro i
    rw [Af_upd (s := s) (s' := { s with mem := s.mem.store j j q, cp := upd s.cp j (.wait (q + 1)) }) h1 hj rfl rfl, upd_apply]
    split
    · next e => rw [e, Af_stage h1 hj]; show q + 1 - 1 ≤ (s.cp j).avail; omega
    · exact Int.le_refl _
  have hP : Pf k N { s with mem := s.mem.store j j q, cp := upd s.cp j (.wait (q + 1)) } = Pf k N s := by
    rw [Pf_upd (s := s) (s' := { s with mem := s.mem.store j j q, cp := upd s.cp j (.wait (q + 1)) }) h1 hj rfl rfl]
    exact upd_self _ _ (by rw [Pf_stage h1 hj, hp]; rfl)
  have hD : Df { s with mem := s.mem.store j j q, cp := upd s.cp j (.wait (q + 1)) } = upd (Df s) j q := by
    rw [Df_upd (s := s) (s' := { s with mem := s.mem.store j j q, cp := upd s.cp j (.wait (q + 1)) }) h1 rfl rfl]; simp [CPc.done]
  have hval : ∀ g ∈ s.mem.msgs j, g.val ≤ q := by
    intro g hg
    have := (hi.core.msgs j hj g hg).1
    rw [Df_stage h1] at this
    omega
  have hmN : ∀ i g, (upd s.mem.msgs j (s.mem.msgs j ++ [⟨q, (s.mem.view j).see j (s.mem.msgs j).length⟩]) N)[i]? = some g →
      (s.mem.msgs N)[i]? = some g ∨ (j = N ∧ i = (s.mem.msgs N).length ∧ g.val = q) := by
    intro i g hg
    rw [upd_apply] at hg
    split at hg
    · next e =>
      subst e
      rcases append_get hg with ⟨hg, _⟩ | ⟨hi, rfl⟩
      · exact .inl hg
      · exact .inr ⟨rfl, hi, rfl⟩
    · exact .inl hg
  refine ⟨?_, ?_, ?_, ?_, hi.want, hi.contNone, hi.contTop⟩
  · rw [hP, hD]
    refine ⟨c1.wrapP, ?_, ?_, c1.ordD, fun i hiN x hx hxA => c1.cover i hiN x hx (Int.le_trans hxA (hA i)), c1.msgs⟩
    · have := hi.core.wrapA
      rw [Af_upd (s := s) (s' := { s with mem := s.mem.store j j q, cp := upd s.cp j (.wait (q + 1)) }) h1 hj rfl rfl, upd_other _ _ (by omega), upd_other _ _ (by omega)]; exact this
    · intro i hiN
      have h2 := c1.ordA i hiN
      refine ⟨?_, Int.le_trans (hA _) h2.2⟩
      rw [Af_upd (s := s) (s' := { s with mem := s.mem.store j j q, cp := upd s.cp j (.wait (q + 1)) }) h1 hj rfl rfl, upd_apply]
      split
      · next e =>
        rw [e, Pf_stage h1 hj, hp]
        simp only [CPc.avail]; omega
      · exact h2.1
  · intro i hio
    refine (upd_other _ _ ?_).trans (hi.outside i hio)
    omega
  · intro a b g h hab hg hh
    rcases hmN a g hg with hg | ⟨e, ea, eg⟩ <;> rcases hmN b h hh with hh | ⟨e', eb, eh⟩
    · exact hi.mono a b g h hab hg hh
    · subst e'; rw [eh]; exact hval g (List.mem_of_getElem? hg)
    · have := (List.getElem?_eq_some_iff.mp hh).1
      omega
    · omega
  · intro i h hle hh
    have hv0 : upd s.mem.view j ((s.mem.view j).see j (s.mem.msgs j).length) 0 = s.mem.view 0 := upd_other _ _ (by omega)
    simp only [Mem.store, hv0] at hle
    rcases hmN i h hh with hh | ⟨e, ei, eh⟩
    · exact hi.newer i h hle hh
    · subst e
      have h3 := (hi.core.ordA j (Nat.le_refl _)).2
      rw [Df_stage h1] at h3
      simp only [Af] at h3
      rw [if_neg (by omega), if_pos trivial] at h3
      show s.cached ≤ h.val
      omega

/-- A handler begins or ends. -/
theorem move_ok (hi : Inv k N s) {j : Nat} (h1 : 1 ≤ j) (hj : j ≤ N) {p : CPc} (hp : (s.cp j).pos ≤ p.pos) (hpa : p.pos ≤ p.avail + 1) (ha : p.avail = (s.cp j).avail)
    (hd : (s.cp j).done ≤ p.done) (hdp : p.done < p.pos) : Inv k N { s with cp := upd s.cp j p } := by
  refine ⟨?_, ?_, hi.mono, hi.newer, hi.want, hi.contNone, hi.contTop⟩
  · have c1 := core_touch hi.core h1 hj (v := p.pos) (by rw [Pf_stage h1 hj]; exact hp) (by rw [Af_stage h1 hj, ← ha]; exact hpa)
    have c2 := core_done c1 hj (v := p.done) (by rw [Df_stage h1]; exact hd) (by rw [upd_same]; exact hdp)
    rw [Pf_upd (s := s) (s' := { s with cp := upd s.cp j p }) h1 hj rfl rfl, Af_upd (s := s) (s' := { s with cp := upd s.cp j p }) h1 hj rfl rfl, Df_upd (s := s) (s' := { s with cp := upd s.cp j p }) h1 rfl rfl, upd_self (Af k N s) j (by rw [Af_stage h1 hj]; exact ha)]
    exact c2
  · intro i hio
    refine (upd_other _ _ ?_).trans (hi.outside i hio)
    omega

theorem Inv.handling (hi : Inv k N s) {j : Nat} {nx av : Int} (h : s.cp j = .handle nx av) :
    1 ≤ j ∧ j ≤ N ∧ Df s j < nx ∧ nx < Pf k N s j ∧ nx ≤ Af k N s j := by
  obtain ⟨h1, hj⟩ := hi.stage (j := j) (by rw [h]; simp)
  refine ⟨h1, hj, ?_⟩
  have hA : Pf k N s j ≤ Af k N s j + 1 := by
    obtain ⟨j, rfl⟩ : ∃ j', j = j' + 1 := ⟨j - 1, by omega⟩
    exact (hi.core.ordA j (by omega)).1
  rw [Pf_stage h1 hj, h] at hA
  rw [Pf_stage h1 hj, Df_stage h1, h]
  simp only [CPc.pos, CPc.done] at hA ⊢
  omega

theorem Inv.step (hk : k ≤ 30) (hN : 1 ≤ N) (hi : Inv k N s) {a : Act V} (hs : RaChain.step k N s a = some s') : Inv k N s' := by
  obtain ⟨c1, c2, c3⟩ := hi.cached_le
  cases a with
  | call n =>
    simp only [RaChain.step] at hs
    split at hs
    · next hn =>
      split at hs <;> cases hs
      · exact ⟨hi.core, hi.outside, hi.mono, hi.newer, fun m h => by cases h; exact hn.2, hi.contNone, hi.contTop⟩
      · next hc =>
        have := claim_ok hi hn.2 (by omega)
        rw [← hn.1] at this
        exact this
    · cases hs
  | scan i again =>
    simp only [RaChain.step] at hs
    split at hs
    · next n hpp =>
      have hn := hi.want n hpp
      split at hs
      · next q mem hl =>
        obtain ⟨g, hg, rfl, hle, rfl⟩ := Mem.load_some hl
        generalize hm : (if g.val < s.nextVal then g.val else s.nextVal) = m at hs
        split at hs
        · split at hs <;> cases hs
          · exact scan_ok hk hi hg hle (q := s.cached) (pp := s.pp) (.inl rfl) hi.want
          · exact scan_ok hk hi hg hle (.inr hm.symm) nofun
        · cases hs
          next hroom =>
          have h1 := scan_ok hk hi hg hle (pp := .idle) (.inr hm.symm) nofun
          exact claim_ok h1 hn (by dsimp only; omega)
      · cases hs
    · cases hs
  | write x v =>
    simp only [RaChain.step] at hs
    split at hs <;> cases hs
    next hx =>
    exact write_ok hk hi (Nat.zero_le _) (by simp [Df]; exact hx.1) (by simp [Pf]; omega) (by simp [Af]; omega) v
  | peek x =>
    simp only [RaChain.step] at hs
    split at hs
    · next hx =>
      split at hs <;> cases hs
      next v mem hr =>
      obtain ⟨h1, h2, h3, h4, h5⟩ := core_read hk hi.core (Nat.zero_le _) (x := x) (by simp [Df]; exact hx.1) (by simp [Pf]; omega) (by simp [Af]; omega) hr
      exact ⟨h1, hi.outside, by rw [h3]; exact hi.mono, by rw [h3, h5]; exact hi.newer, hi.want, hi.contNone, by rw [h4]; exact hi.contTop⟩
    · cases hs
  | publish x =>
    simp only [RaChain.step] at hs
    split at hs <;> cases hs
    next hx =>
    have d1 := core_done hi.core (Nat.zero_le _) (v := x) (by simp [Df]; omega) (by simp [Pf]; omega)
    have d2 := core_store d1 (Nat.zero_le _) (v := x) (by simp)
    have hm : upd s.mem.msgs 0 (s.mem.msgs 0 ++ [⟨x, (s.mem.view 0).see 0 (s.mem.msgs 0).length⟩]) N = s.mem.msgs N := upd_other _ _ (by omega)
    refine ⟨?_, hi.outside, ?_, ?_, hi.want, hi.contNone, hi.contTop⟩
    · have hD : Df { s with mem := s.mem.store 0 0 x, cur := x } = upd (Df s) 0 x := by
        funext j; by_cases e : j = 0 <;> simp [Df, upd_apply, e]
      rw [hD]; exact d2
    · intro i j g h hij hg hh
      simp only [Mem.store, hm] at hg hh
      exact hi.mono i j g h hij hg hh
    · intro j h hj hh
      simp only [Mem.store, upd_same, hm] at hj hh
      exact hi.newer j h (Nat.le_trans (View.see_a_le _ _ _ _) hj) hh
  | look j i =>
    simp only [RaChain.step] at hs
    split at hs
    · next nx hcp =>
      split at hs
      · next hj =>
        obtain ⟨h1, hjN⟩ := hj
        split at hs
        · next av mem hl =>
          obtain ⟨g, hg, rfl, hle, rfl⟩ := Mem.load_some hl
          have hgm := hi.core.msgs (j - 1) (by omega) g (List.mem_of_getElem? hg)
          have hj1 : j - 1 + 1 = j := by omega
          rw [hj1] at hgm
          have hv0 : upd s.mem.view j (((s.mem.view j).join g.view).see (j - 1) i) 0 = s.mem.view 0 := upd_other _ _ (by omega)
          split at hs <;> cases hs
          · refine ⟨?_, hi.outside, hi.mono, by dsimp only; rw [hv0]; exact hi.newer, hi.want, hi.contNone, hi.contTop⟩
            refine core_load (g := g) (l := j - 1) (n := i) (i := j) hi.core hi.core.wrapA hi.core.ordA (fun _ _ _ => rfl) ?_
            intro x _ hx1 hx2
            exact absurd (Int.lt_of_lt_of_le hx1 hx2) (Int.lt_irrefl _)
          · next hav =>
            show Inv k N { s with mem := acquired s.mem j (j - 1) i g, cp := upd s.cp j (.batch nx g.val) }
            refine ⟨?_, ?_, hi.mono, by dsimp only [acquired]; rw [hv0]; exact hi.newer, hi.want, hi.contNone, hi.contTop⟩
            · rw [Pf_upd (s := s) (s' := { s with mem := acquired s.mem j (j - 1) i g, cp := upd s.cp j (.batch nx g.val) }) h1 hjN rfl rfl, Af_upd (s := s) (s' := { s with mem := acquired s.mem j (j - 1) i g, cp := upd s.cp j (.batch nx g.val) }) h1 hjN rfl rfl, Df_upd (s := s) (s' := { s with mem := acquired s.mem j (j - 1) i g, cp := upd s.cp j (.batch nx g.val) }) h1 rfl rfl, upd_self (Pf k N s) j (by rw [Pf_stage h1 hjN, hcp]; rfl),
                upd_self (Df s) j (by rw [Df_stage h1, hcp]; rfl)]
              refine core_load (g := g) (l := j - 1) (n := i) (i := j) hi.core ?_ ?_ ?_ ?_
              · rw [upd_other _ _ (by omega), upd_other _ _ (by omega)]; exact hi.core.wrapA
              · intro j' hj'
                rw [upd_apply]; split
                · next e =>
                  have : j' = j - 1 := by omega
                  subst this
                  rw [e, Pf_stage h1 hjN, hcp]
                  simp only [CPc.pos, CPc.avail]
                  exact ⟨by omega, hgm.1⟩
                · exact hi.core.ordA j' hj'
              · intro j' _ hne; exact upd_other _ _ hne
              · intro x _ hx1 hx2
                rw [upd_same] at hx2
                refine hgm.2 x ?_ hx2
                rw [Af_stage h1 hjN, hcp] at hx1
                rw [Pf_stage h1 hjN, hcp]
                simp only [CPc.avail, CPc.pos] at hx1 ⊢
                omega
            · intro j' hio
              refine (upd_other _ _ ?_).trans (hi.outside j' hio)
              omega
        · cases hs
      · cases hs
    · cases hs
  | advance j =>
    simp only [RaChain.step] at hs
    split at hs
    · next nx av hcp =>
      obtain ⟨h1, hj⟩ := hi.stage (j := j) (by rw [hcp]; simp)
      have hA : (s.cp j).pos ≤ (s.cp j).avail + 1 := by
        rw [← Pf_stage (k := k) h1 hj, ← Af_stage (k := k) h1 hj]
        obtain ⟨j, rfl⟩ : ∃ j', j = j' + 1 := ⟨j - 1, by omega⟩
        exact (hi.core.ordA j (by omega)).1
      rw [hcp] at hA
      simp only [CPc.pos, CPc.avail] at hA
      split at hs <;> cases hs
      · refine move_ok hi h1 hj ?_ ?_ ?_ ?_ ?_ <;> simp only [hcp, CPc.pos, CPc.avail, CPc.done] <;> omega
      · have e : nx = av + 1 := by omega
        subst e
        refine commit_ok hN hi h1 hj ?_ ?_ ?_ <;> simp only [hcp, CPc.pos, CPc.avail, CPc.done] <;> omega
    · cases hs
  | read j =>
    simp only [RaChain.step] at hs
    split at hs
    · next nx av hcp =>
      obtain ⟨p1, p2, p3, p4, p5⟩ := hi.handling hcp
      split at hs <;> cases hs
      next v mem hr =>
      obtain ⟨h1, h2, h3, h4, h5⟩ := core_read hk hi.core p2 p3 p4 p5 hr
      exact ⟨h1, hi.outside, by rw [h3]; exact hi.mono, by rw [h3, h5]; exact hi.newer, hi.want, hi.contNone, by rw [h4]; exact hi.contTop⟩
    · cases hs
  | change j v =>
    simp only [RaChain.step] at hs
    split at hs <;> cases hs
    next nx av hcp =>
    obtain ⟨p1, p2, p3, p4, p5⟩ := hi.handling hcp
    exact write_ok hk hi p2 p3 p4 p5 v
  | finish j =>
    simp only [RaChain.step] at hs
    split at hs <;> cases hs
    next nx av hcp =>
    obtain ⟨p1, p2, p3, p4, p5⟩ := hi.handling hcp
    rw [Af_stage p1 p2, hcp] at p5
    simp only [CPc.avail] at p5
    refine move_ok hi p1 p2 ?_ ?_ ?_ ?_ ?_ <;> simp only [hcp, CPc.pos, CPc.avail, CPc.done] <;> omega
  | throw j =>
    simp only [RaChain.step] at hs
    split at hs <;> cases hs
    next nx av hcp =>
    obtain ⟨p1, p2, p3, p4, p5⟩ := hi.handling hcp
    rw [Af_stage p1 p2, hcp] at p5
    simp only [CPc.avail] at p5
    refine commit_ok hN hi p1 p2 ?_ ?_ ?_ <;> simp only [hcp, CPc.pos, CPc.avail, CPc.done] <;> omega

theorem Reach.inv (hk : k ≤ 30) (hN : 1 ≤ N) {v : V} (h : Reach k N v s) : Inv k N s := by
  induction h with
  | init => exact Inv.init k N v
  | step a _ hs ih => exact ih.step hk hN hs

end Verif.RaChain
