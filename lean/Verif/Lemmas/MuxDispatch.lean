import Verif.Spec.MuxDispatch
import Verif.Props.MemDispatch
import Verif.Props.DataMux

/-! Lemmas for C87: the data multiplexer as a middleware in the sense of Model/MemDispatch.lean. -/

namespace Verif.MuxD
open Verif Verif.Disr ElD MemD

variable {T : Type}

/-- What the processor is done with. -/
def emitted (c : Nat) (s : Mux.St T) : List Data :=
  match s.ring.cp c with
  | .handle x av => if x = av then (s.dl c).tail.reverse.map fun e => (e.1, e.2.1) else newest c s
  | _ => newest c s

theorem ring_cp {k : Nat} {r r' : SRing.St (Option Nat)} {a : SRing.Act (Option Nat)}
    (ha : a = .callTry 1 ∨ a = .pstep ∨ (∃ x v, a = .write x v) ∨ ∃ x, a = .publish x) (h : SRing.step k r a = some r') : r'.cp = r.cp := by
  rcases ha with rfl | rfl | ⟨x, v, rfl⟩ | ⟨x, rfl⟩
  all_goals simp only [SRing.step, SRing.pstep, SRing.claim] at h
  all_goals (repeat' split at h) <;> first | (cases h; done) | (cases h; rfl)

theorem afterClaim_cp (s : Mux.St T) (op : Mux.Op T) (r : SRing.St (Option Nat)) :
    (Mux.afterClaim s op r).ring = r ∧ (Mux.afterClaim s op r).dl = s.dl := by
  simp only [Mux.afterClaim]; (repeat' split) <;> exact ⟨rfl, rfl⟩

/-- What a step does to the processor of `c` and to its deliveries. -/
inductive PEff (shared : Bool) (k c : Nat) (s s' : Mux.St T) : Mux.Act T → Prop where
  | same (a) (h1 : s'.ring.cp c = s.ring.cp c) (h2 : s'.dl c = s.dl c) : PEff shared k c s s' a
  | subscribe : PEff shared k c s s' (.subscribe c)
  | run (x) (h1 : s.ring.cp c = .idle) (h2 : s'.ring.cp c = .wait x) (h3 : s'.dl c = s.dl c) : PEff shared k c s s' (.run c)
  | look (nx av) (h1 : s.ring.cp c = .wait nx) (h2 : s'.ring.cp c = .batch nx av) (h3 : s'.dl c = s.dl c) : PEff shared k c s s' (.look c)
  | event (nx) (h1 : s.ring.cp c = .batch nx nx) (h2 : s'.ring.cp c = .handle nx nx)
      (h3 : s'.dl c = (nx, Mux.objOf shared k s nx, s.heap (Mux.objOf shared k s nx)) :: s.dl c) : PEff shared k c s s' (.advance c)
  | pass (nx av) (h0 : nx ≠ av) (h1 : s.ring.cp c = .batch nx av) (h2 : s'.ring.cp c = .handle nx av ∨ s'.ring.cp c = .wait nx) (h3 : s'.dl c = s.dl c) : PEff shared k c s s' (.advance c)
  | finish (nx av) (h1 : s.ring.cp c = .handle nx av) (h2 : s'.ring.cp c = .batch (nx + 1) av) (h3 : s'.dl c = s.dl c) : PEff shared k c s s' (.finish c)
  | throw (nx) (h1 : s.ring.cp c = .handle nx nx) (h2 : s'.ring.cp c = .wait (nx + 1)) (h3 : s'.dl c = s.dl c) : PEff shared k c s s' (.throw c)
  | leave (nx) (h1 : s.ring.cp c = .wait nx) (h2 : s'.ring.cp c = .idle) (h3 : s'.dl c = s.dl c) : PEff shared k c s s' (.leave c)

theorem peff {shared : Bool} {k c : Nat} {s s' : Mux.St T} {a : Mux.Act T} (hs : Mux.step shared k s a = some s') : PEff shared k c s s' a := by
  cases a with
  | call op =>
    simp only [Mux.step] at hs
    split at hs
    · obtain ⟨r, h1, rfl⟩ := Option.map_eq_some_iff.mp hs
      exact .same _ (by rw [(afterClaim_cp s op r).1, ring_cp (by tauto) h1]) (by rw [(afterClaim_cp s op r).2])
    · cases hs
  | scan =>
    simp only [Mux.step] at hs
    split at hs
    · rename_i op _
      obtain ⟨r, h1, rfl⟩ := Option.map_eq_some_iff.mp hs
      exact .same _ (by rw [(afterClaim_cp s op r).1, ring_cp (by tauto) h1]) (by rw [(afterClaim_cp s op r).2])
    · cases hs
  | write =>
    simp only [Mux.step] at hs
    split at hs
    · obtain ⟨r, h1, rfl⟩ := Option.map_eq_some_iff.mp hs
      exact .same _ (by show r.cp c = _; rw [ring_cp (by simp) h1]) rfl
    · cases hs; exact .same _ rfl rfl
    · cases hs
  | writeThrows g =>
    simp only [Mux.step] at hs
    split at hs <;> first | (cases hs; done) | (cases hs; exact .same _ rfl rfl)
  | publish =>
    simp only [Mux.step] at hs
    split at hs
    · obtain ⟨r, h1, rfl⟩ := Option.map_eq_some_iff.mp hs
      exact .same _ (by show r.cp c = _; rw [ring_cp (by simp) h1]) rfl
    · cases hs
  | subscribe d =>
    by_cases e : d = c
    · subst e; exact .subscribe
    · simp only [Mux.step, SRing.step, Option.map_some, Option.some.injEq] at hs
      subst hs
      exact .same _ rfl (upd_other _ _ (Ne.symm e))
  | run d =>
    simp only [Mux.step, Mux.lift] at hs
    obtain ⟨r, h1, rfl⟩ := Option.map_eq_some_iff.mp hs
    simp only [SRing.step] at h1
    split at h1
    · rename_i hi
      cases h1
      by_cases e : d = c
      · subst e; exact .run _ hi (upd_same _ _ _) rfl
      · exact .same _ (upd_other _ _ (Ne.symm e)) rfl
    · cases h1
  | look d =>
    simp only [Mux.step, Mux.lift] at hs
    obtain ⟨r, h1, rfl⟩ := Option.map_eq_some_iff.mp hs
    simp only [SRing.step] at h1
    split at h1
    · rename_i nx hi
      split at h1
      · cases h1; exact .same _ rfl rfl
      · cases h1
        by_cases e : d = c
        · subst e; exact .look nx _ hi (upd_same _ _ _) rfl
        · exact .same _ (upd_other _ _ (Ne.symm e)) rfl
    · cases h1
  | advance d =>
    simp only [Mux.step] at hs
    split at hs
    · rename_i nx av hcp
      split at hs
      · rename_i hle
        simp only [Mux.lift] at hs
        obtain ⟨r, h1, rfl⟩ := Option.map_eq_some_iff.mp hs
        simp only [SRing.step, hcp, if_pos hle] at h1
        cases h1
        by_cases e : d = c
        · subst e
          by_cases e2 : nx = av
          · subst e2
            refine .event nx hcp (upd_same _ _ _) ?_
            simp [Mux.onEvent]
          · refine .pass nx av e2 hcp (.inl (upd_same _ _ _)) ?_
            simp [Mux.onEvent, e2]
        · refine .same _ (upd_other _ _ (Ne.symm e)) ?_
          simp only [Mux.onEvent]
          split
          · exact upd_other _ _ (Ne.symm e)
          · rfl
      · rename_i hle
        simp only [Mux.lift] at hs
        obtain ⟨r, h1, rfl⟩ := Option.map_eq_some_iff.mp hs
        simp only [SRing.step, hcp, if_neg hle] at h1
        cases h1
        by_cases e : d = c
        · subst e
          exact .pass nx av (by omega) hcp (.inr (upd_same _ _ _)) rfl
        · exact .same _ (upd_other _ _ (Ne.symm e)) rfl
    · cases hs
  | finish d =>
    simp only [Mux.step, Mux.lift] at hs
    obtain ⟨r, h1, rfl⟩ := Option.map_eq_some_iff.mp hs
    simp only [SRing.step] at h1
    split at h1
    · rename_i nx av hi
      cases h1
      by_cases e : d = c
      · subst e; exact .finish nx av hi (upd_same _ _ _) rfl
      · exact .same _ (upd_other _ _ (Ne.symm e)) rfl
    · cases h1
  | throw d =>
    simp only [Mux.step, Mux.lift] at hs
    split at hs
    · rename_i hm
      obtain ⟨r, h1, rfl⟩ := Option.map_eq_some_iff.mp hs
      simp only [SRing.step] at h1
      split at h1
      · rename_i nx av hi
        cases h1
        simp only [Mux.mayThrow, hi] at hm
        subst hm
        by_cases e : d = c
        · subst e; exact .throw nx hi (upd_same _ _ _) rfl
        · exact .same _ (upd_other _ _ (Ne.symm e)) rfl
      · cases h1
    · cases hs
  | leave d =>
    simp only [Mux.step, Mux.lift] at hs
    obtain ⟨r, h1, rfl⟩ := Option.map_eq_some_iff.mp hs
    simp only [SRing.step] at h1
    split at h1
    · rename_i nx hi
      cases h1
      by_cases e : d = c
      · subst e; exact .leave nx hi (upd_same _ _ _) rfl
      · exact .same _ (upd_other _ _ (Ne.symm e)) rfl
    · cases h1

theorem others_step {shared : Bool} {k c : Nat} {s s' : Mux.St T} {a : Mux.Act T} (hs : others shared k c s a = some s') :
    Mux.step shared k s a = some s' ∧ a ≠ .finish c ∧ a ≠ .throw c ∧ a ≠ .subscribe c ∧ Mux.OkAct s a := by
  cases a with
  | finish d =>
    simp only [others] at hs
    split at hs
    · cases hs
    · rename_i h; exact ⟨hs, fun e => (by cases e; exact h rfl), nofun, nofun, trivial⟩
  | throw d =>
    simp only [others] at hs
    split at hs
    · cases hs
    · rename_i h; exact ⟨hs, nofun, fun e => (by cases e; exact h rfl), nofun, trivial⟩
  | subscribe d =>
    simp only [others] at hs
    split at hs
    · rename_i h; exact ⟨hs, nofun, nofun, fun e => (by cases e; exact h.1 rfl), h.2⟩
    · cases hs
  | _ => exact ⟨hs, nofun, nofun, nofun, trivial⟩

theorem hand_some {c : Nat} {s : Mux.St T} {d : Data} (h : hand c s = some d) :
    ∃ x e l, s.ring.cp c = .handle x x ∧ s.dl c = e :: l ∧ d = (e.1, e.2.1) := by
  simp only [hand] at h
  split at h
  · rename_i x av hcp
    split at h
    · rename_i e
      subst e
      match hd : s.dl c with
      | [] => rw [hd] at h; cases h
      | e :: l => rw [hd] at h; cases h; exact ⟨x, e, l, hcp, rfl, rfl⟩
    · cases h
  · cases h

theorem emitted_done {c : Nat} {s : Mux.St T} (h : ∀ x, s.ring.cp c ≠ .handle x x) : emitted c s = newest c s := by
  simp only [emitted]
  split
  · rename_i x av hcp
    rw [if_neg]
    rintro rfl
    exact h _ hcp
  · rfl

theorem hand_done {c : Nat} {s : Mux.St T} (h : ∀ x, s.ring.cp c ≠ .handle x x) : hand c s = none := by
  simp only [hand]
  split
  · rename_i x av hcp
    rw [if_neg]
    rintro rfl
    exact h _ hcp
  · rfl

theorem emitted_hand {c : Nat} {s : Mux.St T} {x : Int} {e : Int × Mux.Obj × T} {l : List (Int × Mux.Obj × T)} (h : s.ring.cp c = .handle x x) (hd : s.dl c = e :: l) :
    hand c s = some (e.1, e.2.1) ∧ newest c s = emitted c s ++ [(e.1, e.2.1)] := by
  constructor
  · simp [hand, h, hd]
  · simp [emitted, newest, h, hd]

theorem newest_congr {c : Nat} {s s' : Mux.St T} (h : s'.dl c = s.dl c) : newest c s' = newest c s := by
  simp only [newest, h]

theorem lawful {shared : Bool} {k c : Nat} {s0 : Mux.St T} (h1 : s0.ring.cp c = .idle) (h2 : s0.dl c = []) :
    Lawful (chan shared k c s0) (emitted c) where
  init := ⟨hand_done (c := c) (s := s0) (by rw [h1]; nofun), by
    show emitted c s0 = []
    rw [emitted_done (by rw [h1]; nofun)]; simp [newest, h2]⟩
  other := by
    intro s s' a ha hs
    change Mux.St T at s s'
    change Act T at a
    change chStep shared k c s a = some s' at hs
    show (∀ d, hand c s = some d → hand c s' = some d) ∧ emitted c s' = emitted c s ∧ (true = true → true = true)
    have done : (∀ x, s.ring.cp c ≠ .handle x x) → (∀ x, s'.ring.cp c ≠ .handle x x) → s'.dl c = s.dl c →
        (∀ d, hand c s = some d → hand c s' = some d) ∧ emitted c s' = emitted c s ∧ (true = true → true = true) := by
      intro g1 g2 g3
      refine ⟨fun d hd => ?_, ?_, fun _ => rfl⟩
      · rw [hand_done g1] at hd; cases hd
      · rw [emitted_done g1, emitted_done g2, newest_congr g3]
    match a, ha with
    | .mux a, _ =>
      obtain ⟨hs, n1, n2, n3, _⟩ := others_step hs
      cases peff (c := c) hs with
      | same _ g1 g2 =>
        refine ⟨fun d hd => ?_, ?_, fun _ => rfl⟩
        · rw [← hd]; simp only [hand, g1, g2]
        · simp only [emitted, newest, g1, g2]
      | subscribe => exact absurd rfl n3
      | run x g1 g2 g3 => exact done (by rw [g1]; nofun) (by rw [g2]; nofun) g3
      | look nx av g1 g2 g3 => exact done (by rw [g1]; nofun) (by rw [g2]; nofun) g3
      | event nx g1 g2 g3 =>
        refine ⟨fun d hd => ?_, ?_, fun _ => rfl⟩
        · rw [hand_done (by rw [g1]; nofun)] at hd; cases hd
        · rw [emitted_done (s := s) (by rw [g1]; nofun)]
          simp [emitted, newest, g2, g3]
      | pass nx av g0 g1 g2 g3 =>
        refine done (by rw [g1]; nofun) ?_ g3
        intro x hx
        rcases g2 with g2 | g2
        · rw [g2] at hx; cases hx; exact g0 rfl
        · rw [g2] at hx; cases hx
      | finish => exact absurd rfl n1
      | throw => exact absurd rfl n2
      | leave nx g1 g2 g3 => exact done (by rw [g1]; nofun) (by rw [g2]; nofun) g3
    | .skip, _ =>
      simp only [chStep] at hs
      split at hs
      · rename_i x av hcp
        split at hs
        · cases hs
        · rename_i hne
          cases peff (c := c) hs with
          | same _ g1 g2 =>
            refine ⟨fun d hd => ?_, ?_, fun _ => rfl⟩
            · rw [← hd]; simp only [hand, g1, g2]
            · simp only [emitted, newest, g1, g2]
          | finish nx av g1 g2 g3 =>
            refine done ?_ (by rw [g2]; nofun) g3
            intro y hy
            rw [hcp] at hy
            cases hy
            exact hne rfl
      · cases hs
  emit := by
    intro s s' hs
    change Mux.St T at s s'
    change chStep shared k c s .emit = some s' at hs
    show ∃ d, hand c s = some d ∧ emitted c s' = emitted c s ++ [d]
    simp only [chStep] at hs
    split at hs
    · rename_i d hd
      refine ⟨d, hd, ?_⟩
      obtain ⟨x, e, l, g1, g2, rfl⟩ := hand_some hd
      rw [← (emitted_hand g1 g2).2]
      simp only [Mux.step, Mux.lift] at hs
      obtain ⟨r, hr, rfl⟩ := Option.map_eq_some_iff.mp hs
      simp only [SRing.step, g1] at hr
      cases hr
      rw [emitted_done]
      · rfl
      · dsimp only; rw [upd_same]; nofun
    · cases hs
  throw := by
    intro s s' hs
    change Mux.St T at s s'
    change chStep shared k c s .throw = some s' at hs
    show ∃ d, hand c s = some d ∧ emitted c s' = emitted c s ++ [d]
    simp only [chStep] at hs
    split at hs
    · rename_i d hd
      refine ⟨d, hd, ?_⟩
      obtain ⟨x, e, l, g1, g2, rfl⟩ := hand_some hd
      rw [← (emitted_hand g1 g2).2]
      have hm : Mux.mayThrow s c := by simp [Mux.mayThrow, g1]
      simp only [Mux.step, Mux.lift, if_pos hm] at hs
      obtain ⟨r, hr, rfl⟩ := Option.map_eq_some_iff.mp hs
      simp only [SRing.step, g1] at hr
      cases hr
      rw [emitted_done]
      · rfl
      · dsimp only; rw [upd_same]; nofun
    · cases hs
  can := by
    intro s d _ hd
    change Mux.St T at s
    change hand c s = some d at hd
    show (∃ s', chStep shared k c s .emit = some s') ∧ ∃ s', chStep shared k c s .throw = some s'
    obtain ⟨x, e, l, g1, g2, rfl⟩ := hand_some hd
    have hm : Mux.mayThrow s c := by simp [Mux.mayThrow, g1]
    simp only [chStep, hd, Mux.step, Mux.lift, if_pos hm, SRing.step, g1]
    exact ⟨⟨_, rfl⟩, ⟨_, rfl⟩⟩

/-! ### the multiplexer behind the subscriber -/

theorem chStep_mux {shared : Bool} {k c : Nat} {s s' : Mux.St T} {a : Act T} (hs : chStep shared k c s a = some s') :
    ∃ b, Mux.step shared k s b = some s' ∧ Mux.OkAct s b ∧ b ≠ .subscribe c := by
  cases a with
  | mux a =>
    obtain ⟨h1, _, _, h2, h3⟩ := others_step hs
    exact ⟨a, h1, h3, h2⟩
  | skip =>
    simp only [chStep] at hs
    (repeat' split at hs) <;> first | (cases hs; done) | exact ⟨_, hs, trivial, nofun⟩
  | emit =>
    simp only [chStep] at hs
    (repeat' split at hs) <;> first | (cases hs; done) | exact ⟨_, hs, trivial, nofun⟩
  | throw =>
    simp only [chStep] at hs
    (repeat' split at hs) <;> first | (cases hs; done) | exact ⟨_, hs, trivial, nofun⟩

theorem Created.facts {shared : Bool} {k : Nat} {v : T} {c : Nat} {s0 : Mux.St T} (h : Created shared k v c s0) :
    Mux.Reach shared k (fun _ => True) v s0 ∧ s0.ring.cp c = .idle ∧ s0.dl c = [] ∧ s0.dc c = 0 ∧ c ∈ s0.ring.gating ∧ s0.ring.base c = s0.ring.cursor := by
  obtain ⟨s, h1, h2, h3, h4⟩ := h
  refine ⟨h1.step (a := .subscribe c) trivial ⟨h2, h3⟩ h4, ?_⟩
  simp only [Mux.step, SRing.step, Option.map_some, Option.some.injEq] at h4
  subst h4
  exact ⟨h3, upd_same _ _ _, upd_same _ _ _, by simp, upd_same _ _ _⟩

/-- Gating sequences stay. -/
theorem gating_step {shared : Bool} {k c : Nat} (hk : k ≤ 30) {P : Mux.Act T → Prop} {v : T} {s s' : Mux.St T} {a : Mux.Act T} (h : Mux.Reach shared k P v s)
    (hs : Mux.step shared k s a = some s') (hc : c ∈ s.ring.gating) :
    c ∈ s'.ring.gating ∧ s.ring.cursor ≤ s'.ring.cursor ∧ (a ≠ .subscribe c → s'.ring.base c = s.ring.base c) := by
  cases Mux.step_eff (h.pcInv hk) hs with
  | callGot op h1 h2 h3 h4 h5 => exact ⟨by rw [h2.gating]; exact hc, by rw [h2.cursor], fun _ => by rw [h2.base]⟩
  | callScan op h1 h2 h3 h4 h5 => exact ⟨by rw [h2.gating]; exact hc, by rw [h2.cursor], fun _ => by rw [h2.base]⟩
  | scanGot op h1 h2 h3 h4 h5 => exact ⟨by rw [h2.gating]; exact hc, by rw [h2.cursor], fun _ => by rw [h2.base]⟩
  | scanMore op h1 h2 h3 h4 h5 => exact ⟨by rw [h2.gating]; exact hc, by rw [h2.cursor], fun _ => by rw [h2.base]⟩
  | scanRefused op h1 h2 h3 h4 h6 h5 => exact ⟨by rw [h2.gating]; exact hc, by rw [h2.cursor], fun _ => by rw [h2.base]⟩
  | writeFresh v x h1 h2 h3 => subst h3; exact ⟨hc, Int.le_refl _, fun _ => rfl⟩
  | writeIn f x h1 h3 => subst h3; exact ⟨hc, Int.le_refl _, fun _ => rfl⟩
  | throwFresh v x g h1 h3 => subst h3; exact ⟨hc, Int.le_refl _, fun _ => rfl⟩
  | throwIn f x g h1 h3 => subst h3; exact ⟨hc, Int.le_refl _, fun _ => rfl⟩
  | publish op y h1 h2 h3 => subst h3; exact ⟨hc, by show s.ring.cursor ≤ y; omega, fun _ => rfl⟩
  | subscribe d h =>
    subst h
    refine ⟨List.mem_append_left _ hc, Int.le_refl _, fun hn => ?_⟩
    exact upd_other _ _ (fun e => hn (by rw [e]))
  | run c h1 h2 h3 h4 h5 h6 h7 => exact ⟨by rw [h1.gating]; exact hc, by rw [h1.cursor], fun _ => by rw [h1.base]⟩
  | look c nx h1 h2 h3 h4 h5 h6 h7 => exact ⟨by rw [h1.gating]; exact hc, by rw [h1.cursor], fun _ => by rw [h1.base]⟩
  | event c nx av h1 h2 h4 hle h3 h5 h6 h7 => exact ⟨by rw [h1.gating]; exact hc, by rw [h1.cursor], fun _ => by rw [h1.base]⟩
  | batchEnd c nx av h1 h2 h3 h4 hgt h5 h6 h7 => exact ⟨by rw [h1.gating]; exact hc, by rw [h1.cursor], fun _ => by rw [h1.base]⟩
  | finish c nx av h1 h2 h3 h4 h5 h6 h7 => exact ⟨by rw [h1.gating]; exact hc, by rw [h1.cursor], fun _ => by rw [h1.base]⟩
  | throw c nx h1 h2 h3 h4 h5 h6 h7 => exact ⟨by rw [h1.gating]; exact hc, by rw [h1.cursor], fun _ => by rw [h1.base]⟩
  | leave c nx h1 h2 h3 h4 h5 h6 h7 => exact ⟨by rw [h1.gating]; exact hc, by rw [h1.cursor], fun _ => by rw [h1.base]⟩

theorem ch_facts {shared : Bool} {k : Nat} (hk : k ≤ 30) {v : T} {c : Nat} {s0 : Mux.St T} (h0 : Created shared k v c s0) {s : Mux.St T}
    (h : ChReach (chan shared k c s0) s) :
    Mux.Reach shared k (fun _ => True) v s ∧ c ∈ s.ring.gating ∧ s.ring.base c = s0.ring.cursor := by
  have : ∀ s : (chan shared k c s0).σ, ChReach (chan shared k c s0) s →
      Mux.Reach shared k (fun _ => True) v (s : Mux.St T) ∧ c ∈ (Mux.St.ring s).gating ∧ (Mux.St.ring s).base c = s0.ring.cursor := by
    intro s h
    induction h with
    | init =>
      obtain ⟨a1, a2, a3, a4, a5, a6⟩ := h0.facts
      exact ⟨a1, a5, a6⟩
    | step _ _ hs ih =>
      obtain ⟨b, b1, b2, b3⟩ := chStep_mux hs
      obtain ⟨c1, c2, c3⟩ := gating_step hk ih.1 b1 ih.2.1
      exact ⟨ih.1.step trivial b2 b1, c1, (c3 b3).trans ih.2.2⟩
  exact this s h

end Verif.MuxD
