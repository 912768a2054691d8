import Verif.Spec.BasicMiddleware
import Verif.Lemmas.SafeQueue

/-! Lemmas for C13. -/

namespace Verif.BM
open Verif.SQ

variable {α : Type}

def forcedSum : List (Ev α) → Nat
  | [] => 0
  | .forced _ _ n :: l => n + forcedSum l
  | _ :: l => forcedSum l

def discCount : List (Ev α) → Nat
  | [] => 0
  | .discarded _ :: l => 1 + discCount l
  | _ :: l => discCount l

def poppedItems : List (Ev α) → List α
  | [] => []
  | .popped _ x :: l => x :: poppedItems l
  | _ :: l => poppedItems l

theorem forcedSum_append (a b : List (Ev α)) : forcedSum (a ++ b) = forcedSum a + forcedSum b := by
  induction a with
  | nil => simp [forcedSum]
  | cons e a ih => cases e <;> simp [forcedSum, ih] <;> omega

theorem discCount_append (a b : List (Ev α)) : discCount (a ++ b) = discCount a + discCount b := by
  induction a with
  | nil => simp [discCount]
  | cons e a ih => cases e <;> simp [discCount, ih] <;> omega

theorem poppedItems_append (a b : List (Ev α)) : poppedItems (a ++ b) = poppedItems a ++ poppedItems b := by
  induction a with
  | nil => simp [poppedItems]
  | cons e a ih => cases e <;> simp [poppedItems, ih]

theorem forcedSum_map_discarded (l : List α) : forcedSum (l.map Ev.discarded) = 0 := by
  induction l <;> simp_all [forcedSum]
theorem discCount_map_discarded (l : List α) : discCount (l.map Ev.discarded) = l.length := by
  induction l <;> simp_all [discCount]; omega
theorem poppedItems_map_discarded (l : List α) : poppedItems (l.map Ev.discarded) = [] := by
  induction l <;> simp_all [poppedItems]

theorem sq_forced_eq {s s' : SQ.St α} {a ev} (h : SQ.step s a = .ok s' ev) : forcedSum ev = discCount ev := by
  cases a <;> sq_cases h <;>
    simp [forcedSum, discCount, forcedSum_append, discCount_append, forcedSum_map_discarded, discCount_map_discarded]

theorem sq_disc_zero {s s' : SQ.St α} {a ev} (h : SQ.step s a = .ok s' ev)
    (hn : ∀ t x p, a ≠ .call t (.forcePush x) p) : discCount ev = 0 := by
  cases a <;> sq_cases h <;> first | simp [discCount] | exact absurd rfl (hn _ _ _)

theorem takenOut_length (l : List (Ev α)) : (takenOut l).length = discCount l + (poppedItems l).length := by
  induction l with
  | nil => rfl
  | cons e l ih =>
    have hc : takenOut (e :: l) = e.outs ++ takenOut l := by simp [takenOut]
    rw [hc, List.length_append, ih]
    cases e <;> simp [Ev.outs, discCount, poppedItems] <;> omega

theorem popped_sublist (l : List (Ev α)) : (poppedItems l).Sublist (takenOut l) := by
  induction l with
  | nil => simp [poppedItems, takenOut]
  | cons e l ih =>
    have hc : takenOut (e :: l) = e.outs ++ takenOut l := by simp [takenOut]
    rw [hc]
    cases e <;> simp [Ev.outs, poppedItems, ih]

theorem popped_eq (l : List (Ev α)) (h : discCount l = 0) : poppedItems l = takenOut l := by
  apply (popped_sublist l).eq_of_length
  rw [takenOut_length]; omega

theorem absorb_spec (s : St α) (ev : List (Ev α)) :
    (absorb s ev).sq = s.sq ∧ (absorb s ev).discarded = s.discarded ∧ (absorb s ev).emitted = s.emitted ∧
    (absorb s ev).hand = s.hand ++ poppedItems ev ∧ pending (absorb s ev) = pending s + forcedSum ev := by
  induction ev generalizing s with
  | nil => simp [absorb, poppedItems, forcedSum]
  | cons e ev ih =>
    cases e <;> simp only [absorb, poppedItems, forcedSum, ih] <;> simp [pending] <;> omega

theorem run_cons {d : Bool} {s s'' : St α} {a rest log} (h : run d s (a :: rest) = some (s'', log)) :
    ∃ s' ev log', step d s a = some (s', ev) ∧ run d s' rest = some (s'', log') ∧ log = ev ++ log' := by
  simp only [run] at h
  split at h
  · cases h
  · rename_i s' ev he
    split at h
    · cases h
    · rename_i s3 log' hr
      cases h
      exact ⟨s', ev, log', he, hr, rfl⟩

/-- What one step does. -/
structure Eff (d : Bool) (s : St α) (a : Act α) (s' : St α) (ev : List (Ev α)) : Prop where
  flow : s.sq.q ++ putIn ev = takenOut ev ++ s'.sq.q
  acc : s'.discarded + pending s' = s.discarded + pending s + discCount ev
  out : s'.emitted ++ s'.hand = s.emitted ++ s.hand ++ poppedItems ev
  blk : d = false → discCount ev = 0
  pub : d = true → s.sq.wnf = [] → s.sq.knf = [] → putIn ev = published [a] ∧ s'.sq.wnf = [] ∧ s'.sq.knf = []

theorem pending_erase {l : List (Nat × Nat)} {e} (h : e ∈ l) : ((l.erase e).map (·.2)).sum + e.2 = (l.map (·.2)).sum := by
  induction l with
  | nil => simp at h
  | cons b l ih =>
    by_cases hb : b = e
    · subst hb; simp; omega
    · have : e ∈ l := by simpa [Ne.symm hb] using h
      have := ih this
      rw [List.erase_cons_tail (by simpa using hb)]
      simp; omega

def forceItem : SQ.Act α → List α
  | .call _ (.forcePush x) _ => [x]
  | _ => []

theorem notifyNF_nil (s : SQ.St α) (p : Nat) (h : s.wnf = []) : notifyNF s p = s := by
  simp [notifyNF, h]

theorem sq_pub {s s' : SQ.St α} {a : SQ.Act α} {ev} (h : SQ.step s a = .ok s' ev) (h1 : s.wnf = []) (h2 : s.knf = [])
    (hb : ∀ t x p, a ≠ .call t (.push x) p) (hc : ∀ t x p, a ≠ .call t (.tryPush x) p) :
    putIn ev = forceItem a ∧ s'.wnf = [] ∧ s'.knf = [] := by
  cases a with
  | call t op p =>
    cases op with
    | push x => exact absurd rfl (hb _ _ _)
    | tryPush x => exact absurd rfl (hc _ _ _)
    | forcePush x =>
      sq_cases h; simp [forceItem, putIn, flatMap_discarded_ins, Ev.ins, h1, h2]
    | pop => sq_cases h <;> simp [forceItem, putIn, Ev.ins, h1, h2, notifyNF_nil]
    | tryPop => sq_cases h <;> simp [forceItem, putIn, Ev.ins, h1, h2, notifyNF_nil]
    | timedPop => sq_cases h <;> simp [forceItem, putIn, Ev.ins, h1, h2, notifyNF_nil]
  | spuriousNE => sq_cases h; simp [forceItem, putIn, h1, h2]
  | expireNE => sq_cases h; simp [forceItem, putIn, h1, h2]
  | spuriousNF => sq_cases h; simp_all
  | resumeNE => sq_cases h <;> simp [forceItem, putIn, Ev.ins, h1, h2, notifyNF_nil]
  | resumeNF => sq_cases h <;> simp_all
  | setMax => sq_cases h; simp [forceItem, putIn, h1, h2]

theorem eff_absorb {d : Bool} {s : St α} {a : Act α} {b q ev} (h : SQ.step s.sq b = .ok q ev)
    (hd : d = false → ∀ t x p, b ≠ .call t (.forcePush x) p)
    (hp : d = true → (∀ t x p, b ≠ .call t (.push x) p) ∧
      published [a] = forceItem b)
    (hc : ∀ t x p, b ≠ .call t (.tryPush x) p) :
    Eff d s a (absorb { s with sq := q } ev) ev := by
  obtain ⟨e1, e2, e3, e4, e5⟩ := absorb_spec { s with sq := q } ev
  constructor
  · rw [e1]; exact step_flow h
  · rw [e2, e5, sq_forced_eq h]; simp [pending]; omega
  · rw [e3, e4]; simp
  · intro hf; exact sq_disc_zero h (hd hf)
  · intro ht h1 h2
    rw [e1, (hp ht).2]
    exact sq_pub h h1 h2 (hp ht).1 hc

theorem step_eff {d : Bool} {s s' : St α} {a ev} (h : step d s a = some (s', ev)) : Eff d s a s' ev := by
  cases a with
  | publish t x pick =>
    simp only [step] at h
    split at h
    · cases h
    · split at h
      · rename_i q ev' hs
        cases h
        refine eff_absorb hs ?_ ?_ ?_
        · rintro rfl; simp
        · rintro rfl; simp [published, forceItem]
        · cases d <;> simp
      · cases h
  | account t =>
    simp only [step] at h
    split at h
    · cases h
    · rename_i e he
      cases h
      have := pending_erase (List.mem_of_find?_eq_some he)
      refine ⟨by simp [putIn, takenOut], ?_, by simp [poppedItems], fun _ => rfl, fun _ h1 h2 => ⟨rfl, h1, h2⟩⟩
      simp [pending, discCount] at *; omega
  | poll timeout pick =>
    simp only [step] at h
    split at h
    · cases h
    · split at h
      · rename_i q ev' hs
        cases h
        exact eff_absorb hs (by simp) (by simp [published, forceItem]) (by simp)
      · cases h
  | emit =>
    simp only [step] at h
    split at h
    · cases h
    · rename_i x r hx
      cases h
      exact ⟨by simp [putIn, takenOut], by simp [pending, discCount], by simp [poppedItems, hx],
        fun _ => rfl, fun _ h1 h2 => ⟨rfl, h1, h2⟩⟩
  | wake b =>
    simp only [step] at h
    split at h
    · rename_i hw
      split at h
      · rename_i q ev' hs
        cases h
        refine eff_absorb hs ?_ ?_ ?_ <;> cases b <;> simp_all [isWake, published, forceItem]
      · cases h
    · cases h

theorem run_eff {d : Bool} {s s' : St α} {as log} (h : run d s as = some (s', log)) :
    s.sq.q ++ putIn log = takenOut log ++ s'.sq.q ∧
    s'.discarded + pending s' = s.discarded + pending s + discCount log ∧
    s'.emitted ++ s'.hand = s.emitted ++ s.hand ++ poppedItems log ∧
    (d = false → discCount log = 0) ∧
    (d = true → s.sq.wnf = [] → s.sq.knf = [] → putIn log = published as ∧ s'.sq.wnf = [] ∧ s'.sq.knf = []) := by
  induction as generalizing s log with
  | nil =>
    simp only [run] at h; cases h
    exact ⟨by simp [putIn, takenOut], by simp [discCount], by simp [poppedItems], fun _ => rfl,
      fun _ h1 h2 => ⟨rfl, h1, h2⟩⟩
  | cons a rest ih =>
    obtain ⟨s1, ev, log', h1, h2, rfl⟩ := run_cons h
    have e := step_eff h1
    obtain ⟨i1, i2, i3, i4, i5⟩ := ih h2
    refine ⟨?_, ?_, ?_, ?_, ?_⟩
    · have := e.flow
      simp only [putIn, takenOut, List.flatMap_append] at *
      rw [← List.append_assoc, this, List.append_assoc, i1, List.append_assoc]
    · have := e.acc
      rw [discCount_append]; omega
    · rw [i3, e.out, poppedItems_append]; simp
    · intro hd; rw [discCount_append, i4 hd, e.blk hd]
    · intro hd w1 w2
      obtain ⟨a1, a2, a3⟩ := e.pub hd w1 w2
      obtain ⟨b1, b2, b3⟩ := i5 hd a2 a3
      refine ⟨?_, b2, b3⟩
      rw [putIn, List.flatMap_append]
      simp only [putIn] at a1 b1
      rw [a1, b1]
      cases a <;> simp [published]

end Verif.BM
