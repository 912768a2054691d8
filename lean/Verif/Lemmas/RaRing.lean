import Verif.Model.RaRing
import Verif.Lemmas.Memory
import Verif.Lemmas.Sequencer

/-! The invariant of the single producer ring on release/acquire memory. -/

namespace Verif.RaRing
open Verif Verif.Disr Verif.RA

variable {V : Type}

/-- First sequence that is not finished. -/
def CPc.low : CPc → Int
  | .wait nx | .batch nx _ | .handle nx _ => nx

/-- First sequence whose slot has not been touched. -/
def CPc.pos : CPc → Int
  | .wait nx | .batch nx _ => nx
  | .handle nx _ => nx + 1

/-- No sequence strictly between `q` and `p` uses slot `x`. -/
def Fresh (k : Nat) (q p : Int) (x : Nat) : Prop := ∀ y, q < y → y < p → slotIdx k y ≠ x

theorem Fresh.mono {k : Nat} {q q' p : Int} {x : Nat} (h : Fresh k q p x) (hq : q ≤ q') : Fresh k q' p x :=
  fun y h1 h2 => h y (by omega) h2

theorem Fresh.mono' {k : Nat} {q p p' : Int} {x : Nat} (h : Fresh k q p x) (hp : p' ≤ p) : Fresh k q p' x :=
  fun y h1 h2 => h y h1 (by omega)

theorem slot_ne {k : Nat} (hk : k ≤ 30) {x y : Int} (h1 : x < y) (h2 : y < x + 2 ^ k) : slotIdx k x ≠ slotIdx k y := by
  rw [slotIdx_eq hk, slotIdx_eq hk]
  have hp : (0 : Int) < 2 ^ k := Int.pow_pos (by decide)
  have e1 := Int.emod_nonneg x (Int.ne_of_gt hp)
  have e2 := Int.emod_nonneg y (Int.ne_of_gt hp)
  intro h
  have h3 : x % 2 ^ k = y % 2 ^ k := by omega
  have h4 : (y - x) % 2 ^ k = 0 := Int.emod_eq_emod_iff_emod_sub_eq_zero.mp h3.symm
  rw [Int.emod_eq_of_lt (by omega) (by omega)] at h4
  omega

/-- What is known of processor `c` through a view with the sequence `q`. -/
def Known (k : Nat) (s : St V) (c : Nat) (q : Int) (r : Nat → Nat → Nat) : Prop :=
  q < (s.cp c).low ∧ ∀ x, Fresh k q (s.cp c).pos x → s.mem.reads x (c + 1) ≤ r x (c + 1)

/-- The part of the batch still to be handled is visible. -/
def Sees (k : Nat) (s : St V) (c : Nat) (nx av : Int) : Prop :=
  av ≤ s.cur ∧ ∀ x, nx ≤ x → x ≤ av → (s.mem.writes (slotIdx k x)).length ≤ (s.mem.view (c + 1)).w (slotIdx k x)

structure Inv (k : Nat) (G : List Nat) (s : St V) : Prop where
  prodW : ∀ x, (s.mem.writes x).length ≤ (s.mem.view 0).w x
  curLo : -1 ≤ s.cur
  curHi : s.cur ≤ s.nextVal
  capLo : s.nextVal - 2 ^ k ≤ s.cached
  capHi : s.cached ≤ s.nextVal
  cmsgs : ∀ g ∈ s.mem.msgs 0, g.val ≤ s.cur ∧
    ∀ x, s.nextVal - 2 ^ k < x → x ≤ g.val → (s.mem.writes (slotIdx k x)).length ≤ g.view.w (slotIdx k x)
  reads0 : ∀ x, s.mem.reads x 0 = 0
  out : ∀ c, c ∉ G → s.cp c = .wait 0 ∧ ∀ x, s.mem.reads x (c + 1) = 0
  own : ∀ c x, s.mem.reads x (c + 1) ≤ (s.mem.view (c + 1)).r x (c + 1)
  posLe : ∀ c, (s.cp c).pos ≤ s.cur + 1
  known : ∀ c ∈ G, Known k s c s.cached (s.mem.view 0).r
  qmsgs : ∀ c ∈ G, ∀ g ∈ s.mem.msgs (c + 1), Known k s c g.val g.view.r
  mono : ∀ c ∈ G, ∀ (i j : Nat) (g h : Msg), i ≤ j → (s.mem.msgs (c + 1))[i]? = some g → (s.mem.msgs (c + 1))[j]? = some h → g.val ≤ h.val
  newer : ∀ c ∈ G, ∀ (i : Nat) (g : Msg), (s.mem.view 0).a (c + 1) ≤ i → (s.mem.msgs (c + 1))[i]? = some g → s.cached ≤ g.val
  batch : ∀ c nx av, s.cp c = .batch nx av → nx ≤ av + 1 ∧ Sees k s c nx av
  handle : ∀ c nx av, s.cp c = .handle nx av → nx ≤ av ∧ Sees k s c nx av
  scan : ∀ n rest m, s.pp = .scan n rest m → 1 ≤ n ∧ s.cached ≤ m ∧ m ≤ s.nextVal ∧ ∀ c ∈ G, c ∉ rest → Known k s c m (s.mem.view 0).r ∧
    ∀ (i : Nat) (g : Msg), (s.mem.view 0).a (c + 1) ≤ i → (s.mem.msgs (c + 1))[i]? = some g → m ≤ g.val
  scanSub : ∀ n rest m, s.pp = .scan n rest m → ∀ c ∈ rest, c ∈ G
  nonempty : ∀ x, s.mem.writes x ≠ []
  valNone : ∀ x, s.nextVal < x → s.val x = none
  valTop : ∀ x v, s.nextVal - 2 ^ k < x → s.val x = some v → (s.mem.writes (slotIdx k x)).head? = some v
  logs : ∀ c x v, (x, v) ∈ s.log c → x ≤ s.cur ∧ ∀ v', s.val x = some v' → v = v'

theorem Inv.init (k : Nat) (G : List Nat) (v : V) : Inv k G (St.init v) := by
  have hp : (0 : Int) < 2 ^ k := Int.pow_pos (by decide)
  constructor <;> simp only [St.init, Mem.init, View.start, CPc.low, CPc.pos, Known, Sees] <;> try grind

theorem inv_call {k : Nat} {G : List Nat} {s s' : St V} (hi : Inv k G s) {n : Int} (hs : step k G s (.call n) = some s') : Inv k G s' := by
  simp only [step] at hs
  split at hs
  · next hn =>
    split at hs
    · cases hs
      exact { hi with
        scan := by
          intro n' rest m h; cases h
          exact ⟨hn.2, hi.capHi, Int.le_refl _, fun c hc hcr => absurd hc hcr⟩
        scanSub := by intro n' rest m h c hc; cases h; exact hc }
    · next hw =>
      cases hs
      have hidle := hn.1
      exact { hi with
        curHi := by have := hi.curHi; show s.cur ≤ s.nextVal + n; omega
        capLo := by show s.nextVal + n - 2 ^ k ≤ s.cached; omega
        capHi := by have := hi.capHi; show s.cached ≤ s.nextVal + n; omega
        cmsgs := fun g hg => ⟨(hi.cmsgs g hg).1, fun x h1 h2 => (hi.cmsgs g hg).2 x (by have : s.nextVal + n - 2 ^ k < x := h1; omega) h2⟩
        scan := by intro n' rest m h; rw [show s.pp = _ from h] at hidle; cases hidle
        valNone := fun x h => hi.valNone x (by have : s.nextVal + n < x := h; omega)
        valTop := fun x v h => hi.valTop x v (by have : s.nextVal + n - 2 ^ k < x := h; omega) }
  · cases hs

theorem inv_scan {k : Nat} {G : List Nat} {s s' : St V} (hi : Inv k G s) {i : Nat} (hs : step k G s (.scan i) = some s') : Inv k G s' := by
  simp only [step] at hs
  split at hs
  · next n c rest m hpp =>
    split at hs
    · next q mem hl =>
      cases hs
      obtain ⟨g, hg, rfl, hle, rfl⟩ := Mem.load_some hl
      obtain ⟨s1, s2, s3, s4⟩ := hi.scan _ _ _ hpp
      have hcG : c ∈ G := hi.scanSub _ _ _ hpp c (by simp)
      have hgm : g ∈ s.mem.msgs (c + 1) := List.mem_of_getElem? hg
      have hr : ∀ x t, (s.mem.view 0).r x t ≤ (((s.mem.view 0).join g.view).see (c + 1) i).r x t  := fun _ _ => Nat.le_max_left _ _
      have hr' : ∀ x t, g.view.r x t ≤ (((s.mem.view 0).join g.view).see (c + 1) i).r x t := fun _ _ => Nat.le_max_right _ _
      have ha : ∀ l, (s.mem.view 0).a l ≤ (((s.mem.view 0).join g.view).see (c + 1) i).a l := by
        intro l
        refine Nat.le_trans ?_ (View.see_a_le ((s.mem.view 0).join g.view) (c + 1) i l)
        exact Nat.le_max_left _ _
      have hc : s.cached ≤ g.val := hi.newer c hcG i g hle hg
      exact { hi with
        prodW := by intro x; have := hi.prodW x; simp only [upd_same, View.see_w, View.join_w]; omega
        own := by intro c x; exact hi.own c x
        known := fun d hd => ⟨(hi.known d hd).1, fun x hx => by
          have := (hi.known d hd).2 x hx; have := hr x (d + 1); simp only [upd_same]; omega⟩
        newer := fun d hd j h hj hh => by
          simp only [upd_same] at hj
          exact hi.newer d hd j h (Nat.le_trans (ha _) hj) hh
        scan := by
          intro n' rest' m' h; cases h
          refine ⟨s1, by show s.cached ≤ _; split <;> omega, by show _ ≤ s.nextVal; split <;> omega, fun d hd hdr => ?_⟩
          simp only [upd_same]
          by_cases hdc : d = c
          · subst hdc
            obtain ⟨k1, k2⟩ := hi.qmsgs d hd g hgm
            refine ⟨⟨by show _ < (s.cp d).low; split <;> omega, fun x hx => ?_⟩, fun j h hj hh => ?_⟩
            · refine Nat.le_trans (k2 x (hx.mono ?_)) (hr' x (d + 1)); split <;> omega
            · have hij : i ≤ j := by
                rw [View.see_a_same] at hj; omega
              have := hi.mono d hd i j g h hij hg hh
              split <;> omega
          · obtain ⟨⟨k1, k2⟩, k3⟩ := s4 d hd (by simp [hdc, hdr])
            refine ⟨⟨by show _ < (s.cp d).low; split <;> omega, fun x hx => ?_⟩, fun j h hj hh => ?_⟩
            · refine Nat.le_trans (k2 x (hx.mono ?_)) (hr x (d + 1)); split <;> omega
            · have := k3 j h (Nat.le_trans (ha _) hj) hh
              split <;> omega
        scanSub := by intro n' rest' m' h d hd; cases h; exact hi.scanSub _ _ _ hpp d (by simp [hd])
        batch := fun d nx av h => hi.batch d nx av h
        handle := fun d nx av h => hi.handle d nx av h }
    · cases hs
  · cases hs

theorem inv_decide {k : Nat} {G : List Nat} {s s' : St V} (hi : Inv k G s) {b : Bool} (hs : step k G s (.decide b) = some s') : Inv k G s' := by
  simp only [step] at hs
  split at hs
  · next n m hpp =>
    obtain ⟨s1, s2, s3, s4⟩ := hi.scan _ _ _ hpp
    have hcl := hi.capLo
    split at hs
    · split at hs
      · cases hs
        exact { hi with
          scan := by
            intro n' rest m h; cases h
            exact ⟨s1, hi.capHi, Int.le_refl _, fun c hc hcr => absurd hc hcr⟩
          scanSub := by intro n' rest m h c hc; cases h; exact hc }
      · cases hs
        exact { hi with
          capLo := by show s.nextVal - 2 ^ k ≤ m; omega
          capHi := s3
          known := fun c hc => (s4 c hc (by simp)).1
          newer := fun c hc => (s4 c hc (by simp)).2
          scan := nofun
          scanSub := nofun }
    · next hw =>
      cases hs
      exact { hi with
        curHi := by have := hi.curHi; show s.cur ≤ s.nextVal + n; omega
        capLo := by show s.nextVal + n - 2 ^ k ≤ m; omega
        capHi := by show m ≤ s.nextVal + n; omega
        cmsgs := fun g hg => ⟨(hi.cmsgs g hg).1, fun x h1 h2 => (hi.cmsgs g hg).2 x (by have : s.nextVal + n - 2 ^ k < x := h1; omega) h2⟩
        known := fun c hc => (s4 c hc (by simp)).1
        newer := fun c hc => (s4 c hc (by simp)).2
        scan := nofun
        scanSub := nofun
        valNone := fun x h => hi.valNone x (by have : s.nextVal + n < x := h; omega)
        valTop := fun x v h => hi.valTop x v (by have : s.nextVal + n - 2 ^ k < x := h; omega) }
  · cases hs

/-- Every processor's unfinished part lies above what the claims allow to overwrite. -/
theorem Inv.low_gt {k : Nat} {G : List Nat} {s : St V} (hi : Inv k G s) {c : Nat} (hc : c ∈ G) : s.nextVal - 2 ^ k < (s.cp c).low := by
  have := (hi.known c hc).1
  have := hi.capLo
  omega

theorem CPc.low_le_pos (p : CPc) : p.low ≤ p.pos := by cases p <;> simp only [CPc.low, CPc.pos] <;> omega

theorem Inv.cur_ge {k : Nat} {G : List Nat} {s : St V} (hi : Inv k G s) (hG : G ≠ []) : s.nextVal - 2 ^ k ≤ s.cur := by
  obtain ⟨c, t, rfl⟩ := List.exists_cons_of_ne_nil hG
  have h1 := hi.low_gt (c := c) (by simp)
  have h2 := hi.posLe c
  have h3 := (s.cp c).low_le_pos
  omega

theorem inv_write {k : Nat} (hk : k ≤ 30) {G : List Nat} (hG : G ≠ []) {s s' : St V} (hi : Inv k G s) {x : Int} {v : V} (hs : step k G s (.write x v) = some s') :
    Inv k G s' := by
  simp only [step] at hs
  split at hs
  · next hx =>
    cases hs
    have hne : ∀ y, s.nextVal - 2 ^ k < y → y ≤ s.cur → slotIdx k y ≠ slotIdx k x := fun y h1 h2 => slot_ne hk (by omega) (by omega)
    exact { hi with
      prodW := by
        intro z
        simp only [Mem.write, upd_same, upd_apply]
        split
        · simp
        · exact hi.prodW z
      cmsgs := fun g hg => ⟨(hi.cmsgs g hg).1, fun y h1 h2 => by
        have h3 := (hi.cmsgs g hg).1
        simp only [Mem.write]
        rw [upd_other _ _ (hne y h1 (by omega))]
        exact (hi.cmsgs g hg).2 y h1 h2⟩
      own := fun c y => hi.own c y
      known := fun c hc => by
        refine ⟨(hi.known c hc).1, fun y hy => ?_⟩
        simp only [Mem.write, upd_same]
        exact (hi.known c hc).2 y hy
      newer := fun c hc j h hj hh => by
        simp only [Mem.write, upd_same] at hj
        exact hi.newer c hc j h hj hh
      batch := fun c nx av h => by
        obtain ⟨h1, h2, h3⟩ := hi.batch c nx av h
        refine ⟨h1, h2, fun y hy1 hy2 => ?_⟩
        have hc : c ∈ G := by
          by_cases hc : c ∈ G
          · exact hc
          · rw [(hi.out c hc).1] at h; cases h
        have hl := hi.low_gt hc
        rw [h] at hl
        simp only [CPc.low] at hl
        simp only [Mem.write]
        rw [upd_other _ _ (hne y (by omega) (by omega))]
        exact h3 y hy1 hy2
      handle := fun c nx av h => by
        obtain ⟨h1, h2, h3⟩ := hi.handle c nx av h
        refine ⟨h1, h2, fun y hy1 hy2 => ?_⟩
        have hc : c ∈ G := by
          by_cases hc : c ∈ G
          · exact hc
          · rw [(hi.out c hc).1] at h; cases h
        have hl := hi.low_gt hc
        rw [h] at hl
        simp only [CPc.low] at hl
        simp only [Mem.write]
        rw [upd_other _ _ (hne y (by omega) (by omega))]
        exact h3 y hy1 hy2
      scan := fun n rest m h => by
        obtain ⟨s1, s2, s3, s4⟩ := hi.scan n rest m h
        refine ⟨s1, s2, s3, fun c hc hcr => ?_⟩
        simp only [Mem.write, upd_same]
        exact s4 c hc hcr
      nonempty := fun y => by
        simp only [Mem.write, upd_apply]
        split
        · simp
        · exact hi.nonempty y
      valNone := fun y hy => by
        have : s.nextVal < y := hy
        exact (upd_other _ _ (by omega)).trans (hi.valNone y hy)
      valTop := fun y w h1 h2 => by
        simp only [Mem.write]
        by_cases hy : y = x
        · subst hy
          simp only [upd_same] at h2 ⊢
          exact h2
        · simp only [upd_other _ _ hy] at h2
          have hyn : y ≤ s.nextVal := by
            rcases Int.lt_or_le s.nextVal y with h | h
            · rw [hi.valNone y h] at h2; cases h2
            · exact h
          have hsl : slotIdx k y ≠ slotIdx k x := by
            have h1' : s.nextVal - 2 ^ k < y := h1
            have h2' := hi.cur_ge hG
            rcases Int.lt_or_gt_of_ne hy with h | h
            · exact slot_ne hk h (by omega)
            · exact (slot_ne hk h (by omega)).symm
          rw [upd_other _ _ hsl]
          exact hi.valTop y w h1 h2
      logs := fun c y w h => by
        obtain ⟨h1, h2⟩ := hi.logs c y w h
        refine ⟨h1, fun v' hv' => h2 v' ?_⟩
        rw [← hv']; exact (upd_other _ _ (by omega)).symm }
  · cases hs

theorem inv_publish {k : Nat} {G : List Nat} {s s' : St V} (hi : Inv k G s) {x : Int} (hs : step k G s (.publish x) = some s') :
    Inv k G s' := by
  simp only [step] at hs
  split at hs
  · next hx =>
    cases hs
    have hm : ∀ c, upd s.mem.msgs 0 (s.mem.msgs 0 ++ [⟨x, (s.mem.view 0).see 0 (s.mem.msgs 0).length⟩]) (c + 1) = s.mem.msgs (c + 1) :=
      fun c => upd_other _ _ (by omega)
    exact { hi with
      prodW := by
        intro z
        simp only [Mem.store, upd_same, View.see_w]
        exact hi.prodW z
      curLo := by have := hi.curLo; show -1 ≤ x; omega
      curHi := hx.2
      cmsgs := fun g hg => by
        simp only [Mem.store, upd_same, List.mem_append, List.mem_singleton] at hg
        rcases hg with hg | rfl
        · exact ⟨by have := (hi.cmsgs g hg).1; show g.val ≤ x; omega, (hi.cmsgs g hg).2⟩
        · exact ⟨Int.le_refl _, fun y _ _ => hi.prodW _⟩
      own := fun c y => hi.own c y
      posLe := fun c => by have := hi.posLe c; show (s.cp c).pos ≤ x + 1; omega
      known := fun c hc => by
        refine ⟨(hi.known c hc).1, fun y hy => ?_⟩
        simp only [Mem.store, upd_same]
        exact (hi.known c hc).2 y hy
      qmsgs := fun c hc g hg => by
        simp only [Mem.store, hm] at hg
        exact hi.qmsgs c hc g hg
      mono := fun c hc i j g h hij hg hh => by
        simp only [Mem.store, hm] at hg hh
        exact hi.mono c hc i j g h hij hg hh
      newer := fun c hc j h hj hh => by
        simp only [Mem.store, upd_same, hm] at hj hh
        exact hi.newer c hc j h (Nat.le_trans (View.see_a_le _ _ _ _) hj) hh
      batch := fun c nx av h => by
        obtain ⟨h1, h2, h3⟩ := hi.batch c nx av h
        exact ⟨h1, by show av ≤ x; omega, h3⟩
      handle := fun c nx av h => by
        obtain ⟨h1, h2, h3⟩ := hi.handle c nx av h
        exact ⟨h1, by show av ≤ x; omega, h3⟩
      scan := fun n rest m h => by
        obtain ⟨s1, s2, s3, s4⟩ := hi.scan n rest m h
        refine ⟨s1, s2, s3, fun c hc hcr => ⟨?_, ?_⟩⟩
        · refine ⟨(s4 c hc hcr).1.1, fun y hy => ?_⟩
          simp only [Mem.store, upd_same]
          exact (s4 c hc hcr).1.2 y hy
        · intro j g hj hg
          simp only [Mem.store, upd_same, hm] at hj hg
          exact (s4 c hc hcr).2 j g (Nat.le_trans (View.see_a_le _ _ _ _) hj) hg
      logs := fun c y w h => ⟨by have := (hi.logs c y w h).1; show y ≤ x; omega, (hi.logs c y w h).2⟩ }
  · cases hs

theorem inv_look {k : Nat} {G : List Nat} {s s' : St V} (hi : Inv k G s) {c i : Nat} (hs : step k G s (.look c i) = some s') :
    Inv k G s' := by
  simp only [step] at hs
  split at hs
  · next nx hcp =>
    split at hs
    · next hcG =>
      split at hs
      · next av mem hl =>
        obtain ⟨g, hg, rfl, hle, rfl⟩ := Mem.load_some hl
        have hgm : g ∈ s.mem.msgs 0 := List.mem_of_getElem? hg
        obtain ⟨g1, g2⟩ := hi.cmsgs g hgm
        have hv0 : upd s.mem.view (c + 1) (((s.mem.view (c + 1)).join g.view).see 0 i) 0 = s.mem.view 0 := upd_other _ _ (by omega)
        have hown : ∀ d x, s.mem.reads x (d + 1) ≤ (upd s.mem.view (c + 1) (((s.mem.view (c + 1)).join g.view).see 0 i) (d + 1)).r x (d + 1) := by
          intro d x
          have := hi.own d x
          rw [upd_apply]
          split
          · next e => rw [e] at this ⊢; exact Nat.le_trans this (Nat.le_max_left _ _)
          · exact this
        have hw : ∀ d x, (s.mem.view (d + 1)).w x ≤ (upd s.mem.view (c + 1) (((s.mem.view (c + 1)).join g.view).see 0 i) (d + 1)).w x := by
          intro d x
          rw [upd_apply]
          split
          · next e => rw [e]; exact Nat.le_max_left _ _
          · exact Nat.le_refl _
        have hlow := hi.low_gt hcG
        rw [hcp] at hlow
        simp only [CPc.low] at hlow
        split at hs
        · cases hs
          exact { hi with
            prodW := by intro x; simp only [hv0]; exact hi.prodW x
            own := hown
            known := fun d hd => by simp only [Known, hv0]; exact hi.known d hd
            newer := fun d hd => by simp only [hv0]; exact hi.newer d hd
            batch := fun d nx av h => by
              obtain ⟨h1, h2, h3⟩ := hi.batch d nx av h
              exact ⟨h1, h2, fun x a b => Nat.le_trans (h3 x a b) (hw d _)⟩
            handle := fun d nx av h => by
              obtain ⟨h1, h2, h3⟩ := hi.handle d nx av h
              exact ⟨h1, h2, fun x a b => Nat.le_trans (h3 x a b) (hw d _)⟩
            scan := fun n rest m h => by simp only [Known, hv0]; exact hi.scan n rest m h }
        · next hav =>
          cases hs
          have hlo : ∀ d, (upd s.cp c (.batch nx g.val) d).low = (s.cp d).low := by
            intro d; rw [upd_apply]; split
            · next e => rw [e, hcp]; rfl
            · rfl
          have hpo : ∀ d, (upd s.cp c (.batch nx g.val) d).pos = (s.cp d).pos := by
            intro d; rw [upd_apply]; split
            · next e => rw [e, hcp]; rfl
            · rfl
          exact { hi with
            prodW := by intro x; simp only [hv0]; exact hi.prodW x
            out := fun d hd => by
              refine ⟨?_, (hi.out d hd).2⟩
              refine (upd_other _ _ ?_).trans (hi.out d hd).1
              rintro rfl; exact hd hcG
            own := hown
            posLe := fun d => by rw [hpo]; exact hi.posLe d
            known := fun d hd => by simp only [Known, hv0, hlo, hpo]; exact hi.known d hd
            qmsgs := fun d hd g hg => by simp only [Known, hlo, hpo]; exact hi.qmsgs d hd g hg
            newer := fun d hd => by simp only [hv0]; exact hi.newer d hd
            batch := fun d nx' av h => by
              simp only [upd_apply] at h
              split at h
              · next e =>
                cases h
                refine ⟨by omega, g1, fun x a b => ?_⟩
                refine Nat.le_trans (g2 x (by omega) b) ?_
                rw [e]
                simp only [upd_same]
                exact Nat.le_max_right _ _
              · obtain ⟨h1, h2, h3⟩ := hi.batch d nx' av h
                exact ⟨h1, h2, fun x a b => Nat.le_trans (h3 x a b) (hw d _)⟩
            handle := fun d nx' av h => by
              simp only [upd_apply] at h
              split at h
              · cases h
              · obtain ⟨h1, h2, h3⟩ := hi.handle d nx' av h
                exact ⟨h1, h2, fun x a b => Nat.le_trans (h3 x a b) (hw d _)⟩
            scan := fun n rest m h => by simp only [Known, hv0, hlo, hpo]; exact hi.scan n rest m h }
      · cases hs
    · cases hs
  · cases hs

theorem Inv.inG {k : Nat} {G : List Nat} {s : St V} (hi : Inv k G s) {c : Nat} (h : s.cp c ≠ .wait 0) : c ∈ G := by
  by_cases hc : c ∈ G
  · exact hc
  · exact absurd (hi.out c hc).1 h

/-- A processor sets its sequence to `q`, everything up to `q` finished, and waits for `q + 1`. -/
theorem inv_commit {k : Nat} {G : List Nat} {s : St V} (hi : Inv k G s) {c : Nat} (hcG : c ∈ G) {q : Int} (h1 : (s.cp c).pos = q + 1)
    (h2 : (s.cp c).low ≤ q + 1) : Inv k G { s with mem := s.mem.store (c + 1) (c + 1) q, cp := upd s.cp c (.wait (q + 1)) } := by
  have hv0 : upd s.mem.view (c + 1) ((s.mem.view (c + 1)).see (c + 1) (s.mem.msgs (c + 1)).length) 0 = s.mem.view 0 := upd_other _ _ (by omega)
  have hvr : ∀ d, (upd s.mem.view (c + 1) ((s.mem.view (c + 1)).see (c + 1) (s.mem.msgs (c + 1)).length) d).r = (s.mem.view d).r := by
    intro d; rw [upd_apply]; split
    · next e => rw [e]; rfl
    · rfl
  have hvw : ∀ d, (upd s.mem.view (c + 1) ((s.mem.view (c + 1)).see (c + 1) (s.mem.msgs (c + 1)).length) d).w = (s.mem.view d).w := by
    intro d; rw [upd_apply]; split
    · next e => rw [e]; rfl
    · rfl
  have hm0 : upd s.mem.msgs (c + 1) (s.mem.msgs (c + 1) ++ [⟨q, (s.mem.view (c + 1)).see (c + 1) (s.mem.msgs (c + 1)).length⟩]) 0 = s.mem.msgs 0 :=
    upd_other _ _ (by omega)
  have hpo : ∀ d, (upd s.cp c (.wait (q + 1)) d).pos = (s.cp d).pos := by
    intro d; rw [upd_apply]; split
    · next e => rw [e, h1]; rfl
    · rfl
  have hlo : ∀ d, (s.cp d).low ≤ (upd s.cp c (.wait (q + 1)) d).low := by
    intro d; rw [upd_apply]; split
    · next e => rw [e]; exact h2
    · exact Int.le_refl _
  have hkn : ∀ d q' r, Known k s d q' r → Known k { s with mem := s.mem.store (c + 1) (c + 1) q, cp := upd s.cp c (.wait (q + 1)) } d q' r := by
    intro d q' r h
    refine ⟨?_, fun x hx => ?_⟩
    · have := h.1; have := hlo d; show q' < (upd s.cp c (.wait (q + 1)) d).low; omega
    · refine h.2 x ?_
      have : Fresh k q' (upd s.cp c (.wait (q + 1)) d).pos x := hx
      rwa [hpo] at this
  have hvals : ∀ g ∈ s.mem.msgs (c + 1), g.val ≤ q := by
    intro g hg
    have := (hi.qmsgs c hcG g hg).1
    omega
  have hmd : ∀ d, d ≠ c → upd s.mem.msgs (c + 1) (s.mem.msgs (c + 1) ++ [⟨q, (s.mem.view (c + 1)).see (c + 1) (s.mem.msgs (c + 1)).length⟩]) (d + 1) = s.mem.msgs (d + 1) :=
    fun d hd => upd_other _ _ (by omega)
  have hcq : s.cached ≤ q := by
    have := (hi.known c hcG).1; omega
  exact { hi with
    prodW := by intro x; simp only [Mem.store, hv0]; exact hi.prodW x
    cmsgs := fun g hg => by simp only [Mem.store, hm0] at hg; exact hi.cmsgs g hg
    out := fun d hd => by
      refine ⟨?_, (hi.out d hd).2⟩
      refine (upd_other _ _ ?_).trans (hi.out d hd).1
      rintro rfl; exact hd hcG
    own := fun d x => by simp only [Mem.store, hvr]; exact hi.own d x
    posLe := fun d => by rw [hpo]; exact hi.posLe d
    known := fun d hd => by
      have := hkn d _ _ (hi.known d hd)
      simp only [Mem.store, hv0]
      exact this
    qmsgs := fun d hd g hg => by
      by_cases e : d = c
      · subst e
        simp only [Mem.store, upd_same, List.mem_append, List.mem_singleton] at hg
        rcases hg with hg | rfl
        · exact hkn d _ _ (hi.qmsgs d hd g hg)
        · refine ⟨?_, fun x _ => hi.own d x⟩
          show q < (upd s.cp d (.wait (q + 1)) d).low
          simp only [upd_same, CPc.low]; omega
      · simp only [Mem.store, hmd d e] at hg
        exact hkn d _ _ (hi.qmsgs d hd g hg)
    mono := fun d hd i j g h hij hg hh => by
      by_cases e : d = c
      · subst e
        simp only [Mem.store, upd_same] at hg hh
        rcases append_get hg with ⟨hg, hgl⟩ | ⟨hgl, rfl⟩ <;> rcases append_get hh with ⟨hh, hhl⟩ | ⟨hhl, rfl⟩
        · exact hi.mono d hd i j g h hij hg hh
        · exact hvals g (List.mem_of_getElem? hg)
        · omega
        · exact Int.le_refl _
      · simp only [Mem.store, hmd d e] at hg hh
        exact hi.mono d hd i j g h hij hg hh
    newer := fun d hd j h hj hh => by
      simp only [Mem.store, hv0] at hj
      by_cases e : d = c
      · subst e
        simp only [Mem.store, upd_same] at hh
        rcases append_get hh with ⟨hh, hhl⟩ | ⟨hhl, rfl⟩
        · exact hi.newer d hd j h hj hh
        · exact hcq
      · simp only [Mem.store, hmd d e] at hh
        exact hi.newer d hd j h hj hh
    batch := fun d nx av h => by
      simp only [upd_apply] at h
      split at h
      · cases h
      · obtain ⟨a1, a2, a3⟩ := hi.batch d nx av h
        refine ⟨a1, a2, fun x a b => ?_⟩
        simp only [Mem.store, hvw]
        exact a3 x a b
    handle := fun d nx av h => by
      simp only [upd_apply] at h
      split at h
      · cases h
      · obtain ⟨a1, a2, a3⟩ := hi.handle d nx av h
        refine ⟨a1, a2, fun x a b => ?_⟩
        simp only [Mem.store, hvw]
        exact a3 x a b
    scan := fun n rest m h => by
      obtain ⟨s1, s2, s3, s4⟩ := hi.scan n rest m h
      refine ⟨s1, s2, s3, fun d hd hdr => ⟨?_, ?_⟩⟩
      · have := hkn d _ _ (s4 d hd hdr).1
        simp only [Mem.store, hv0]
        exact this
      · intro j g hj hg
        simp only [Mem.store, hv0] at hj
        by_cases e : d = c
        · subst e
          simp only [Mem.store, upd_same] at hg
          rcases append_get hg with ⟨hg, _⟩ | ⟨_, rfl⟩
          · exact (s4 d hd hdr).2 j g hj hg
          · have := (s4 d hd hdr).1.1
            show m ≤ q; omega
        · simp only [Mem.store, hmd d e] at hg
          exact (s4 d hd hdr).2 j g hj hg }

theorem inv_read {k : Nat} {G : List Nat} {s s' : St V} (hi : Inv k G s) {c : Nat} (hs : step k G s (.read c) = some s') :
    Inv k G s' := by
  simp only [step] at hs
  split at hs
  · next nx av hcp =>
    split at hs
    · next v mem hl =>
      cases hs
      obtain ⟨hv, rfl⟩ := Mem.read_some hl
      have hcG : c ∈ G := hi.inG (by rw [hcp]; simp)
      obtain ⟨b1, b2, b3⟩ := hi.handle c nx av hcp
      have hlow := hi.low_gt hcG
      rw [hcp] at hlow
      simp only [CPc.low] at hlow
      generalize hu : ({ s.mem.view (c + 1) with r := upd (s.mem.view (c + 1)).r (slotIdx k nx) (upd ((s.mem.view (c + 1)).r (slotIdx k nx)) (c + 1)
        (s.mem.reads (slotIdx k nx) (c + 1) + 1)) } : View) = u
      have huw : u.w = (s.mem.view (c + 1)).w := by rw [← hu]
      have hv0 : upd s.mem.view (c + 1) u 0 = s.mem.view 0 := upd_other _ _ (by omega)
      have hvw : ∀ d, (upd s.mem.view (c + 1) u d).w = (s.mem.view d).w := by
        intro d; rw [upd_apply]; split
        · next e => rw [e, huw]
        · rfl
      -- other counts of reads do not change
      have hro : ∀ x t, t ≠ c + 1 ∨ x ≠ slotIdx k nx →
          upd s.mem.reads (slotIdx k nx) (upd (s.mem.reads (slotIdx k nx)) (c + 1) (s.mem.reads (slotIdx k nx) (c + 1) + 1)) x t = s.mem.reads x t := by
        intro x t h
        by_cases hx : x = slotIdx k nx
        · subst hx
          rw [upd_same]
          refine upd_other _ _ ?_
          rcases h with h | h
          · exact h
          · exact absurd rfl h
        · rw [upd_other _ _ hx]
      -- nobody relies on this count
      have hkn : ∀ d q r, Known k s d q r → Known k { s with
          mem := ⟨s.mem.msgs, s.mem.writes,
            upd s.mem.reads (slotIdx k nx) (upd (s.mem.reads (slotIdx k nx)) (c + 1) (s.mem.reads (slotIdx k nx) (c + 1) + 1)),
            upd s.mem.view (c + 1) u⟩
          log := upd s.log c ((nx, v) :: s.log c) } d q r := by
        intro d q r h
        refine ⟨h.1, fun x hx => ?_⟩
        have hx : Fresh k q (s.cp d).pos x := hx
        show upd s.mem.reads (slotIdx k nx) _ x (d + 1) ≤ _
        rw [hro]
        · exact h.2 x hx
        · by_cases e : d = c
          · subst e
            right
            rintro rfl
            refine hx nx ?_ ?_ rfl
            · have := h.1; rw [hcp] at this; exact this
            · rw [hcp]; simp only [CPc.pos]; omega
          · left; omega
      exact { hi with
        prodW := by intro x; simp only [hv0]; exact hi.prodW x
        reads0 := fun x => by
          show upd s.mem.reads (slotIdx k nx) _ x 0 = 0
          rw [hro x 0 (.inl (by omega))]; exact hi.reads0 x
        out := fun d hd => ⟨(hi.out d hd).1, fun x => by
          show upd s.mem.reads (slotIdx k nx) _ x (d + 1) = 0
          rw [hro]
          · exact (hi.out d hd).2 x
          · left; intro e; have : d = c := by omega
            subst this; exact hd hcG⟩
        own := fun d x => by
          show upd s.mem.reads (slotIdx k nx) _ x (d + 1) ≤ (upd s.mem.view (c + 1) u (d + 1)).r x (d + 1)
          by_cases e : d = c
          · subst e
            rw [upd_same (a := d + 1), ← hu]
            show _ ≤ upd (s.mem.view (d + 1)).r (slotIdx k nx) (upd ((s.mem.view (d + 1)).r (slotIdx k nx)) (d + 1)
              (s.mem.reads (slotIdx k nx) (d + 1) + 1)) x (d + 1)
            by_cases hx : x = slotIdx k nx
            · subst hx; simp only [upd_same]; exact Nat.le_refl _
            · rw [hro _ _ (.inr hx), upd_other _ _ hx]; exact hi.own d x
          · rw [hro _ _ (.inl (by omega)), upd_other _ _ (by omega)]; exact hi.own d x
        known := fun d hd => by
          have := hkn d _ _ (hi.known d hd)
          simp only [hv0]
          exact this
        qmsgs := fun d hd g hg => hkn d _ _ (hi.qmsgs d hd g hg)
        newer := fun d hd => by simp only [hv0]; exact hi.newer d hd
        batch := fun d nx av h => by
          obtain ⟨a1, a2, a3⟩ := hi.batch d nx av h
          refine ⟨a1, a2, fun x a b => ?_⟩
          simp only [hvw]
          exact a3 x a b
        handle := fun d nx av h => by
          obtain ⟨a1, a2, a3⟩ := hi.handle d nx av h
          refine ⟨a1, a2, fun x a b => ?_⟩
          simp only [hvw]
          exact a3 x a b
        scan := fun n rest m h => by
          obtain ⟨s1, s2, s3, s4⟩ := hi.scan n rest m h
          refine ⟨s1, s2, s3, fun d hd hdr => ⟨?_, ?_⟩⟩
          · have := hkn d _ _ (s4 d hd hdr).1
            simp only [hv0]
            exact this
          · simp only [hv0]; exact (s4 d hd hdr).2
        logs := fun d y w h => by
          simp only [upd_apply] at h
          split at h
          · next e =>
            rcases List.mem_cons.mp h with h | h
            · cases h
              refine ⟨by show nx ≤ s.cur; omega, fun v' hv' => ?_⟩
              have := hi.valTop nx v' hlow hv'
              rw [hv] at this
              exact Option.some.inj this
            · exact hi.logs c y w h
          · exact hi.logs d y w h }
    · cases hs
  · cases hs

theorem inv_cp {k : Nat} {G : List Nat} {s : St V} (hi : Inv k G s) {c : Nat} (hcG : c ∈ G) {p : CPc} (h1 : (s.cp c).pos ≤ p.pos) (h2 : (s.cp c).low ≤ p.low)
    (h3 : p.pos ≤ s.cur + 1) (h4 : ∀ nx av, p = .batch nx av → nx ≤ av + 1 ∧ Sees k s c nx av) (h5 : ∀ nx av, p = .handle nx av → nx ≤ av ∧ Sees k s c nx av) :
    Inv k G { s with cp := upd s.cp c p } := by
  have hpo : ∀ d, (s.cp d).pos ≤ (upd s.cp c p d).pos := by
    intro d; rw [upd_apply]; split
    · next e => rw [e]; exact h1
    · exact Int.le_refl _
  have hlo : ∀ d, (s.cp d).low ≤ (upd s.cp c p d).low := by
    intro d; rw [upd_apply]; split
    · next e => rw [e]; exact h2
    · exact Int.le_refl _
  have hkn : ∀ d q' r, Known k s d q' r → Known k { s with cp := upd s.cp c p } d q' r := by
    intro d q' r h
    refine ⟨?_, fun x hx => ?_⟩
    · have := h.1; have := hlo d; show q' < (upd s.cp c p d).low; omega
    · exact h.2 x (Fresh.mono' hx (hpo d))
  exact { hi with
    out := fun d hd => by
      refine ⟨?_, (hi.out d hd).2⟩
      refine (upd_other _ _ ?_).trans (hi.out d hd).1
      rintro rfl; exact hd hcG
    posLe := fun d => by
      show (upd s.cp c p d).pos ≤ _
      rw [upd_apply]; split
      · exact h3
      · exact hi.posLe d
    known := fun d hd => hkn d _ _ (hi.known d hd)
    qmsgs := fun d hd g hg => hkn d _ _ (hi.qmsgs d hd g hg)
    batch := fun d nx av h => by
      simp only [upd_apply] at h
      split at h
      · next e => rw [e]; exact h4 nx av h
      · exact hi.batch d nx av h
    handle := fun d nx av h => by
      simp only [upd_apply] at h
      split at h
      · next e => rw [e]; exact h5 nx av h
      · exact hi.handle d nx av h
    scan := fun n rest m h => by
      obtain ⟨s1, s2, s3, s4⟩ := hi.scan n rest m h
      exact ⟨s1, s2, s3, fun d hd hdr => ⟨hkn d _ _ (s4 d hd hdr).1, (s4 d hd hdr).2⟩⟩ }

theorem Inv.step {k : Nat} (hk : k ≤ 30) {G : List Nat} (hG : G ≠ []) {s s' : St V} (hi : Inv k G s) {a : Act V} (hs : RaRing.step k G s a = some s') :
    Inv k G s' := by
  cases a with
  | call n => exact inv_call hi hs
  | scan i => exact inv_scan hi hs
  | decide b => exact inv_decide hi hs
  | write x v => exact inv_write hk hG hi hs
  | publish x => exact inv_publish hi hs
  | look c i => exact inv_look hi hs
  | read c => exact inv_read hi hs
  | advance c =>
    simp only [RaRing.step] at hs
    split at hs
    · next nx av hcp =>
      have hcG : c ∈ G := hi.inG (by rw [hcp]; simp)
      obtain ⟨b1, b2, b3⟩ := hi.batch c nx av hcp
      split at hs
      · next hle =>
        cases hs
        refine inv_cp hi hcG ?_ ?_ ?_ nofun ?_
        · rw [hcp]; simp only [CPc.pos]; omega
        · rw [hcp]; exact Int.le_refl _
        · simp only [CPc.pos]; omega
        · intro nx' av' e; cases e; exact ⟨hle, b2, b3⟩
      · next hle =>
        cases hs
        have e : nx = av + 1 := by omega
        subst e
        refine inv_commit hi hcG ?_ ?_
        · rw [hcp]; rfl
        · rw [hcp]; exact Int.le_refl _
    · cases hs
  | finish c =>
    simp only [RaRing.step] at hs
    split at hs
    · next nx av hcp =>
      cases hs
      have hcG : c ∈ G := hi.inG (by rw [hcp]; simp)
      obtain ⟨b1, b2, b3⟩ := hi.handle c nx av hcp
      refine inv_cp hi hcG ?_ ?_ ?_ ?_ nofun
      · rw [hcp]; exact Int.le_refl _
      · rw [hcp]; simp only [CPc.low]; omega
      · simp only [CPc.pos]; omega
      · intro nx' av' e; cases e; exact ⟨by omega, b2, fun x h1 h2 => b3 x (by omega) h2⟩
    · cases hs
  | throw c =>
    simp only [RaRing.step] at hs
    split at hs
    · next nx av hcp =>
      cases hs
      have hcG : c ∈ G := hi.inG (by rw [hcp]; simp)
      refine inv_commit hi hcG ?_ ?_
      · rw [hcp]; rfl
      · rw [hcp]; simp only [CPc.low]; omega
    · cases hs

theorem Reach.inv {k : Nat} (hk : k ≤ 30) {G : List Nat} (hG : G ≠ []) {v : V} {s : St V} (h : Reach k G v s) : Inv k G s := by
  induction h with
  | init => exact Inv.init k G v
  | step a _ hs ih => exact ih.step hk hG hs

end Verif.RaRing
