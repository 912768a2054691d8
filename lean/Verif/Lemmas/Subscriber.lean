import Verif.Spec.Subscriber
import Verif.Lemmas.SafeEmitter
import Verif.Lemmas.MultiEmitter

/-! Lemmas for C20. -/

namespace Verif.Sub
open Verif

variable {κ β ε : Type}

/-- Named listener with its id. -/
structure NL (κ β : Type) where
  name : κ
  id : Nat
  cb : β

/-- Map of the subscriber. -/
structure MapInv [DecidableEq κ] (m : κ → Option Nat) (l : List (NL κ β)) : Prop where
  hsome : ∀ x ∈ l, m x.name = some x.id
  hnone : ∀ n, n ∉ l.map NL.name → m n = none
  names : (l.map NL.name).Nodup
  ids : (l.map NL.id).Nodup

theorem MapInv.remove [DecidableEq κ] {m : κ → Option Nat} {l : List (NL κ β)} (h : MapInv m l) (n : κ) :
    MapInv (upd m n none) (l.filter (fun x => decide (x.name ≠ n))) := by
  constructor
  · intro x hx
    have hx' := List.mem_filter.mp hx
    have : x.name ≠ n := by simpa using hx'.2
    rw [upd_other _ _ this]; exact h.hsome x hx'.1
  · intro k hk
    by_cases hkn : k = n
    · subst hkn; simp
    · rw [upd_other _ _ hkn]
      apply h.hnone
      intro hm
      obtain ⟨x, hx, rfl⟩ := List.mem_map.mp hm
      exact hk (List.mem_map_of_mem (List.mem_filter.mpr ⟨hx, by simpa using hkn⟩))
  · exact ((List.filter_sublist).map _).nodup h.names
  · exact ((List.filter_sublist).map _).nodup h.ids

theorem MapInv.add [DecidableEq κ] {m : κ → Option Nat} {l : List (NL κ β)} (h : MapInv m l) (x : NL κ β)
    (hn : x.name ∉ l.map NL.name) (hi : x.id ∉ l.map NL.id) : MapInv (upd m x.name (some x.id)) (l ++ [x]) := by
  constructor
  · intro y hy
    rcases List.mem_append.mp hy with hy | hy
    · have : y.name ≠ x.name := fun he => hn (he ▸ List.mem_map_of_mem hy)
      rw [upd_other _ _ this]; exact h.hsome y hy
    · simp at hy; subst hy; simp
  · intro k hk
    simp at hk
    rw [upd_other _ _ hk.2]
    exact h.hnone k (by simpa using hk.1)
  · rw [List.map_append]
    exact List.Nodup.append h.names (by simp) (by intro a ha hb; simp at hb; subst hb; exact hn ha)
  · rw [List.map_append]
    exact List.Nodup.append h.ids (by simp) (by intro a ha hb; simp at hb; subst hb; exact hi ha)

theorem find_by_name [DecidableEq κ] {m : κ → Option Nat} {l : List (NL κ β)} (h : MapInv m l) (n : κ) :
    (m n = none ∧ n ∉ l.map NL.name) ∨ (∃ x ∈ l, x.name = n ∧ m n = some x.id) := by
  by_cases hn : n ∈ l.map NL.name
  · obtain ⟨x, hx, rfl⟩ := List.mem_map.mp hn
    exact Or.inr ⟨x, hx, rfl, h.hsome x hx⟩
  · exact Or.inl ⟨h.hnone n hn, hn⟩

theorem filter_id_name [DecidableEq κ] {l : List (NL κ β)} (hn : (l.map NL.name).Nodup) (hi : (l.map NL.id).Nodup)
    {x : NL κ β} (hx : x ∈ l) :
    l.filter (fun y => decide (y.id ≠ x.id)) = l.filter (fun y => decide (y.name ≠ x.name)) := by
  apply List.filter_congr
  intro y hy
  apply decide_eq_decide.mpr
  apply not_congr
  constructor
  · intro h; rw [List.inj_on_of_nodup_map hi hy hx h]
  · intro h; rw [List.inj_on_of_nodup_map hn hy hx h]

/-- Specification state of the list. -/
def pairs (l : List (NL κ β)) : List (κ × β) := l.map (fun x => (x.name, x.cb))

theorem pairs_names (l : List (NL κ β)) : (pairs l).map (·.1) = l.map NL.name := by
  simp [pairs, Function.comp_def]

theorem pairs_filter [DecidableEq κ] (l : List (NL κ β)) (n : κ) :
    pairs (l.filter (fun x => decide (x.name ≠ n))) = (pairs l).filter (fun x => decide (x.1 ≠ n)) := by
  unfold pairs; rw [List.filter_map]; rfl

/-! ### Safe emitter -/

section safe
variable [LinearOrder κ]

def toReg (ev : κ) (c : Nat) (l : List (NL κ β)) : EmitterSpec.Reg κ β :=
  ⟨c, l.map (fun x => ⟨x.id, ev, false, x.cb⟩)⟩

structure SafeInv (ev : κ) (s : St (SafeEE.St κ β) κ) (c : Nat) (l : List (NL κ β)) : Prop where
  em : SafeEE.R s.em (toReg ev c l)
  map : MapInv s.map l

theorem SafeInv.step {ev : κ} {s : St (SafeEE.St κ β) κ} {c : Nat} {l : List (NL κ β)} (h : SafeInv ev s c l)
    (o : Op κ β ε) (hc : c + SubSpec.regs [o] < 2 ^ 32) (hg : SubSpec.Good true (pairs l) [o]) :
    (apply (safeE ev) s o).2 = (SubSpec.apply (pairs l) o).2 ∧
    ∃ l', SafeInv ev (apply (safeE ev) s o).1 (c + SubSpec.regs [o]) l' ∧ pairs l' = (SubSpec.apply (pairs l) o).1 := by
  cases o with
  | reg n cb =>
    have hn : n ∉ l.map NL.name := by
      have := hg.1 rfl
      rwa [pairs_names] at this
    simp only [SubSpec.regs] at hc ⊢
    refine ⟨rfl, l ++ [⟨n, c + 1, cb⟩], ?_, ?_⟩
    · have := h.em.add (by simpa [toReg] using hc) ev false cb
      have hid : (SafeEE.on s.em ev cb).2 = c + 1 := this.1
      constructor
      · simp only [apply, register, safeE]
        have e : toReg ev (c + 1) (l ++ [⟨n, c + 1, cb⟩]) =
            ⟨(toReg ev c l).count + 1, (toReg ev c l).live ++ [⟨(toReg ev c l).count + 1, ev, false, cb⟩]⟩ := by
          simp [toReg]
        rw [Nat.zero_add, e]; exact this.2
      · simp only [apply, register, safeE, hid]
        apply h.map.add ⟨n, c + 1, cb⟩ hn
        intro hm
        obtain ⟨x, hx, hxe⟩ := List.mem_map.mp hm
        have := h.em.bound ⟨x.id, ev, false, x.cb⟩ (List.mem_map.mpr ⟨x, hx, rfl⟩)
        simp [toReg] at this
        simp at hxe
        omega
    · have : n ∉ (pairs l).map (·.1) := by rwa [pairs_names]
      simp only [SubSpec.apply, if_neg this]
      simp [pairs]
  | rem n =>
    simp only [SubSpec.regs, Nat.add_zero] at hc ⊢
    simp only [apply, remove]
    rcases find_by_name h.map n with ⟨h1, h2⟩ | ⟨x, hx, hxn, hm⟩
    · simp only [h1]
      refine ⟨rfl, l, h, ?_⟩
      simp only [SubSpec.apply]
      symm
      rw [List.filter_eq_self]
      intro a ha
      simp only [decide_eq_true_eq]
      rintro rfl
      exact h2 (by rw [← pairs_names]; exact List.mem_map_of_mem ha)
    · simp only [hm, safeE]
      rw [SafeEE.removeListener_eq _ _ h.em.ids_nodup, if_pos]
      · refine ⟨rfl, l.filter (fun y => decide (y.name ≠ n)), ⟨?_, ?_⟩, ?_⟩
        · have := h.em.filter (fun y => decide (y.id ≠ x.id))
          have e : ({ toReg ev c l with live := (toReg ev c l).live.filter (fun y => decide (y.id ≠ x.id)) } : EmitterSpec.Reg κ β)
              = toReg ev c (l.filter (fun y => decide (y.name ≠ n))) := by
            rw [← hxn, ← filter_id_name h.map.names h.map.ids hx]
            simp only [toReg, List.filter_map]
            rfl
          rw [e] at this
          exact this
        · exact h.map.remove n
        · rw [pairs_filter]; rfl
      · rw [h.em.mem_ids]
        exact ⟨⟨x.id, ev, false, x.cb⟩, List.mem_map.mpr ⟨x, hx, rfl⟩, rfl⟩
  | stats n =>
    simp only [SubSpec.regs, Nat.add_zero] at hc ⊢
    have hn : n ∈ l.map NL.name := by
      have := hg.1
      simp only at this
      rwa [pairs_names] at this
    refine ⟨rfl, l, ?_, rfl⟩
    obtain ⟨x, hx, rfl⟩ := List.mem_map.mp hn
    simp only [apply, queryStats, h.map.hsome x hx]
    exact h
  | emit e =>
    simp only [SubSpec.regs, Nat.add_zero] at hc ⊢
    have hap := h.em.apply (.emit ev e : SafeEE.Op κ β ε) (Or.inr ⟨by simp, by simp⟩)
    simp only [SafeEE.apply, EmitterSpec.apply] at hap
    obtain ⟨h1, h2⟩ := hap
    have hf : (toReg ev c l).live.filter (fun x => decide (¬ (x.name = ev ∧ x.isOnce = true))) = (toReg ev c l).live := by
      rw [List.filter_eq_self]
      intro x hx
      obtain ⟨y, _, rfl⟩ := List.mem_map.mp hx
      simp
    have hf2 : (toReg ev c l).live.filter (fun x => decide (x.name = ev)) = (toReg ev c l).live := by
      rw [List.filter_eq_self]
      intro x hx
      obtain ⟨y, _, rfl⟩ := List.mem_map.mp hx
      simp
    rw [hf] at h2
    simp only [SafeEE.Res.calls.injEq, hf2] at h1
    refine ⟨?_, l, ⟨h2, h.map⟩, rfl⟩
    simp only [apply, safeE, SubSpec.apply, Res.calls.injEq, h1.1]
    simp [toReg, pairs, Function.comp_def]

theorem SafeInv.run {ev : κ} {s : St (SafeEE.St κ β) κ} {c : Nat} {l : List (NL κ β)} (h : SafeInv ev s c l)
    (os : List (Op κ β ε)) (hc : c + SubSpec.regs os < 2 ^ 32) (hg : SubSpec.Good true (pairs l) os) :
    (runOps (safeE ev) s os).2 = (SubSpec.runOps (pairs l) os).2 := by
  induction os generalizing s c l with
  | nil => rfl
  | cons o os ih =>
    have hr : SubSpec.regs (o :: os) = SubSpec.regs [o] + SubSpec.regs os := by
      cases o <;> simp [SubSpec.regs] <;> omega
    rw [hr] at hc
    obtain ⟨h1, l', h2, h3⟩ := h.step o (by omega) ⟨hg.1, trivial⟩
    have := ih h2 (by omega) (by rw [h3]; exact hg.2)
    simp only [runOps, SubSpec.runOps]
    rw [h1, this, h3]

end safe

/-! ### Multi-listener emitter -/

section multi
variable [DecidableEq κ]

def toMReg (ev : κ) (c : Nat) (l : List (NL κ β)) : MultiSpec.Reg κ β :=
  ⟨c, l.map (fun x => ⟨x.id, x.name, ev, x.cb⟩)⟩

structure MultiInv (ev : κ) (s : St (MultiEE.St κ β) κ) (c : Nat) (l : List (NL κ β)) : Prop where
  em : MultiEE.Inv s.em (toMReg ev c l)
  map : MapInv s.map l

theorem MultiInv.step {b : Bool} {ev : κ} {s : St (MultiEE.St κ β) κ} {c : Nat} {l : List (NL κ β)}
    (h : MultiInv ev s c l) (o : Op κ β ε) (hg : SubSpec.Good false (pairs l) [o]) :
    (apply (multiE b ev) s o).2 = (SubSpec.apply (pairs l) o).2 ∧
    ∃ c' l', MultiInv ev (apply (multiE b ev) s o).1 c' l' ∧ pairs l' = (SubSpec.apply (pairs l) o).1 := by
  cases o with
  | reg n cb =>
    refine ⟨rfl, ?_⟩
    have hap := h.em.apply (.on b n ev cb : MultiEE.Op κ β ε)
    simp only [MultiEE.apply, MultiSpec.apply] at hap
    have hfind : (toMReg ev c l).live.find? (fun x => decide (x.lname = n)) =
        (l.find? (fun x => decide (x.name = n))).map (fun x => ⟨x.id, x.name, ev, x.cb⟩) := by
      simp only [toMReg]; rw [List.find?_map]; rfl
    rw [hfind] at hap
    simp only [apply, register, multiE, SubSpec.apply]
    cases hf : l.find? (fun x => decide (x.name = n)) with
    | some x =>
      rw [hf] at hap
      simp only [Option.map_some] at hap
      have hx := List.mem_of_find?_eq_some hf
      have hxn : x.name = n := by simpa using List.find?_some hf
      have hid : (MultiEE.on s.em b n ev cb).2 = x.id := by simpa using hap.1
      have hin : n ∈ (pairs l).map (·.1) := by rw [pairs_names, ← hxn]; exact List.mem_map_of_mem hx
      refine ⟨c, l, ⟨hap.2, ?_⟩, by rw [if_pos hin]⟩
      have : upd s.map n (some (MultiEE.on s.em b n ev cb).2) = s.map := by
        funext k
        rw [upd_apply, hid]
        split
        · rename_i hk; rw [hk, ← hxn, h.map.hsome x hx]
        · rfl
      rw [this]; exact h.map
    | none =>
      rw [hf] at hap
      simp only [Option.map_none] at hap
      have hid : (MultiEE.on s.em b n ev cb).2 = c := by simpa [toMReg] using hap.1
      have hn : n ∉ l.map NL.name := by
        rw [List.find?_eq_none] at hf
        intro hm
        obtain ⟨x, hx, hxn⟩ := List.mem_map.mp hm
        exact hf x hx (by simpa using hxn)
      have hn' : n ∉ (pairs l).map (·.1) := by rwa [pairs_names]
      refine ⟨c + 1, l ++ [⟨n, c, cb⟩], ⟨?_, ?_⟩, ?_⟩
      · have e : toMReg ev (c + 1) (l ++ [⟨n, c, cb⟩]) =
            ⟨(toMReg ev c l).next + 1, (toMReg ev c l).live ++ [⟨(toMReg ev c l).next, n, ev, cb⟩]⟩ := by
          simp [toMReg]
        rw [e]; exact hap.2
      · simp only [hid]
        apply h.map.add ⟨n, c, cb⟩ hn
        intro hm
        obtain ⟨x, hx, hxe⟩ := List.mem_map.mp hm
        have := h.em.bound ⟨x.id, x.name, ev, x.cb⟩ (List.mem_map.mpr ⟨x, hx, rfl⟩)
        simp [toMReg] at this
        simp at hxe
        omega
      · rw [if_neg hn']; simp [pairs]
  | rem n =>
    simp only [apply, remove]
    rcases find_by_name h.map n with ⟨h1, h2⟩ | ⟨x, hx, hxn, hm⟩
    · simp only [h1]
      refine ⟨rfl, c, l, h, ?_⟩
      simp only [SubSpec.apply]
      symm
      rw [List.filter_eq_self]
      intro a ha
      simp only [decide_eq_true_eq]
      rintro rfl
      exact h2 (by rw [← pairs_names]; exact List.mem_map_of_mem ha)
    · simp only [hm, multiE]
      refine ⟨rfl, c, l.filter (fun y => decide (y.name ≠ n)), ⟨?_, h.map.remove n⟩, ?_⟩
      · have := (h.em.apply (.remove b x.id : MultiEE.Op κ β ε)).2
        simp only [MultiEE.apply, MultiSpec.apply] at this
        have e : ({ toMReg ev c l with live := (toMReg ev c l).live.filter (fun y => decide (y.id ≠ x.id)) } : MultiSpec.Reg κ β)
            = toMReg ev c (l.filter (fun y => decide (y.name ≠ n))) := by
          rw [← hxn, ← filter_id_name h.map.names h.map.ids hx]
          simp only [toMReg, List.filter_map]
          rfl
        rw [e] at this
        exact this
      · rw [pairs_filter]; rfl
  | stats n =>
    have hn : n ∈ l.map NL.name := by
      have := hg.1
      simp only at this
      rwa [pairs_names] at this
    refine ⟨rfl, c, l, ?_, rfl⟩
    obtain ⟨x, hx, rfl⟩ := List.mem_map.mp hn
    simp only [apply, queryStats, h.map.hsome x hx]
    exact h
  | emit e =>
    have hsub := h.em.subs ev
    have hf2 : (toMReg ev c l).live.filter (fun x => decide (x.sub = ev)) = (toMReg ev c l).live := by
      rw [List.filter_eq_self]
      intro x hx
      obtain ⟨y, _, rfl⟩ := List.mem_map.mp hx
      simp
    rw [hf2] at hsub
    refine ⟨?_, c, l, h, rfl⟩
    simp only [apply, multiE, SubSpec.apply, Res.calls.injEq, MultiEE.emit]
    rw [hsub, MultiEE.callAll_eq s.em e _ h.em.fns]
    simp [toMReg, pairs, Function.comp_def]

theorem MultiInv.run {b : Bool} {ev : κ} {s : St (MultiEE.St κ β) κ} {c : Nat} {l : List (NL κ β)}
    (h : MultiInv ev s c l) (os : List (Op κ β ε)) (hg : SubSpec.Good false (pairs l) os) :
    (runOps (multiE b ev) s os).2 = (SubSpec.runOps (pairs l) os).2 := by
  induction os generalizing s c l with
  | nil => rfl
  | cons o os ih =>
    obtain ⟨h1, c', l', h2, h3⟩ := h.step (b := b) o ⟨hg.1, trivial⟩
    have := ih h2 (by rw [h3]; exact hg.2)
    simp only [runOps, SubSpec.runOps]
    rw [h1, this, h3]

end multi

end Verif.Sub
