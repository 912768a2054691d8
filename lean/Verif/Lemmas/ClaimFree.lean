import Verif.Spec.ClaimFree
import Verif.Lemmas.LockFree
import Verif.Lemmas.MultiRing

/-! A potential for the claims on the ring with many producers (C88). -/

namespace Verif.MRing
open Verif Verif.Disr Verif.LFS

variable {V : Type}

/-- Steps of a `try_next` that are still needed when no compare-and-set fails. -/
def PPc.rem (G : Nat) : PPc → Nat
  | .tLoad _ => G + 5
  | .tCache .. => G + 4
  | .tScan _ _ rest _ => rest.length + 3
  | .tSet .. => 2
  | .tCas .. => 1
  | _ => 0

def PPc.inside : PPc → Nat
  | .idle => 0
  | _ => 1

/-- The cursor value loaded by a `try_next` is not the current one any more. -/
def PPc.stale (cursor : Int) : PPc → Nat
  | .tCache _ cur | .tScan _ cur _ _ | .tSet _ cur _ | .tCas _ cur => if cursor = cur then 0 else 1
  | _ => 0

theorem PPc.stale_le (c : Int) (p : PPc) : p.stale c ≤ 1 := by
  cases p <;> simp only [PPc.stale] <;> (try split) <;> omega

def pot (N G : Nat) (c : Int) (p : PPc) : Nat := p.rem G + (N - 1) * (G + 5) * p.inside + (G + 5) * p.stale c

def val (N G : Nat) (s : St V) (p : Nat) : Nat := pot N G s.cursor (s.pp p)

/-- A step of `p` that leaves the cursor alone. -/
theorem tot_same {N G : Nat} {s s' : St V} {p : Nat} {pc : PPc} (h1 : s'.cursor = s.cursor) (h2 : s'.pp = upd s.pp p pc) (hp : p < N) {k c : Nat}
    (hk : pot N G s.cursor pc + k ≤ pot N G s.cursor (s.pp p) + c) : tot (val N G s') N + k ≤ tot (val N G s) N + c := by
  have := tot_upd (f := val N G s) (g := val N G s') (b := 0) (k := k) (c := c) (t := p) hp (fun u _ hu => by simp only [val, h1, h2, upd_other _ _ hu]; omega)
    (by simp only [val, h1, h2, upd_same]; exact hk)
  omega

/-- A successful compare-and-set of `p`. -/
theorem tot_claim {N G : Nat} {s s' : St V} {p : Nat} (h2 : s'.pp = upd s.pp p .idle) (hp : p < N) {k : Nat}
    (hk : k + (N - 1) * (G + 5) ≤ pot N G s.cursor (s.pp p)) : tot (val N G s') N + k ≤ tot (val N G s) N := by
  have := tot_upd (f := val N G s) (g := val N G s') (b := G + 5) (k := k + (N - 1) * (G + 5)) (c := 0) (t := p) hp (fun u _ hu => by
      have h3 := PPc.stale_le s'.cursor (s.pp u)
      have h4 : (G + 5) * (s.pp u).stale s'.cursor ≤ (G + 5) * 1 := Nat.mul_le_mul_left _ h3
      simp only [val, pot, h2, upd_other _ _ hu]; omega)
    (by
      have e0 : pot N G s'.cursor .idle = 0 := by simp [pot, PPc.rem, PPc.inside, PPc.stale]
      simp only [val, h2, upd_same, e0]; omega)
  have e : (N - 1) * (G + 5) = (G + 5) * (N - 1) := Nat.mul_comm _ _
  omega

/-- What an action adds to the potential. -/
def cost (N G : Nat) : Act V → Nat
  | .callNext .. | .callTry .. => N * (G + 5)
  | .weak _ => G + 5
  | _ => 0

theorem mul_pred {N G : Nat} (h : 0 < N) : N * (G + 5) = (N - 1) * (G + 5) + (G + 5) := by
  obtain ⟨m, rfl⟩ : ∃ m, N = m + 1 := ⟨N - 1, by omega⟩
  simp [Nat.add_mul]

theorem step_tot {N G k : Nat} {s s' : St V} {a : Act V} (hw : InWindow N a) (hl : ListsLe G s) (hs : step k s a = some s') :
    tot (val N G s') N + (if tryStep s a then 1 else 0) ≤ tot (val N G s) N + cost N G a := by
  have keep : ∀ {s' : St V}, s'.cursor = s.cursor → s'.pp = s.pp → tot (val N G s') N = tot (val N G s) N := by
    intro s' h1 h2
    have : val N G s' = val N G s := by funext p; simp only [val, h1, h2]
    rw [this]
  cases a with
  | callNext p n =>
    simp only [step] at hs
    split at hs
    · rename_i hc
      cases hs
      have := mul_pred (N := N) (G := G) (Nat.lt_of_le_of_lt (Nat.zero_le _) hw)
      refine tot_same (s := s) (p := p) (pc := .nLoad n) (by rfl) (by rfl) hw ?_
      simp only [pot, hc.1, PPc.rem, PPc.inside, PPc.stale, cost, tryStep]
      simp only [Nat.mul_zero, Nat.mul_one, Nat.zero_add, Nat.add_zero]
      simp only [Bool.false_eq_true, if_false]
      omega
    · cases hs
  | callTry p n =>
    simp only [step] at hs
    split at hs
    · rename_i hc
      cases hs
      have := mul_pred (N := N) (G := G) (Nat.lt_of_le_of_lt (Nat.zero_le _) hw)
      refine tot_same (s := s) (p := p) (pc := .tLoad n) (by rfl) (by rfl) hw ?_
      simp only [pot, hc.1, PPc.rem, PPc.inside, PPc.stale, cost, tryStep]
      simp
      omega
    · cases hs
  | pstep p =>
    have hlen := hl.1
    have hrd := hl.2 p
    simp only [step, pstep] at hs
    have stay : ∀ {s' : St V} {pc : PPc}, s'.cursor = s.cursor → s'.pp = upd s.pp p pc →
        pot N G s.cursor pc + (if tryStep s (.pstep p) then 1 else 0) ≤ pot N G s.cursor (s.pp p) →
        tot (val N G s') N + (if tryStep s (.pstep p) then 1 else 0) ≤ tot (val N G s) N + cost N G (.pstep p : Act V) := fun h1 h2 h3 => by
      have := tot_same (k := if tryStep s (.pstep p) then 1 else 0) (c := 0) h1 h2 hw (by omega)
      simp only [cost]
      exact this
    have done : ∀ {s' : St V}, s'.pp = upd s.pp p .idle →
        (if tryStep s (.pstep p) then 1 else 0) + (N - 1) * (G + 5) ≤ pot N G s.cursor (s.pp p) →
        tot (val N G s') N + (if tryStep s (.pstep p) then 1 else 0) ≤ tot (val N G s) N + cost N G (.pstep p : Act V) := fun h2 h3 => by
      have := tot_claim (k := if tryStep s (.pstep p) then 1 else 0) h2 hw h3
      simp only [cost]
      exact this
    split at hs
    case h_1 => cases hs
    case h_2 n e => cases hs; exact stay rfl rfl (by simp [pot, e, tryStep, PPc.inTry, PPc.rem, PPc.inside, PPc.stale])
    case h_3 n cur e => split at hs <;> cases hs <;> exact stay rfl rfl (by simp [pot, e, tryStep, PPc.inTry, PPc.rem, PPc.inside, PPc.stale])
    case h_4 n cur m e => split at hs <;> cases hs <;> exact stay rfl rfl (by simp [pot, e, tryStep, PPc.inTry, PPc.rem, PPc.inside, PPc.stale])
    case h_5 n cur c rest m e => cases hs; exact stay rfl rfl (by simp [pot, e, tryStep, PPc.inTry, PPc.rem, PPc.inside, PPc.stale])
    case h_6 n m e => cases hs; exact stay rfl rfl (by simp [pot, e, tryStep, PPc.inTry, PPc.rem, PPc.inside, PPc.stale])
    case h_7 n cur e =>
      split at hs <;> cases hs
      · exact done rfl (by simp [pot, e, tryStep, PPc.inTry, PPc.rem, PPc.inside, PPc.stale])
      · exact stay rfl rfl (by simp [pot, e, tryStep, PPc.inTry, PPc.rem, PPc.inside, PPc.stale])
    case h_8 n e => cases hs; exact stay rfl rfl (by simp [pot, e, tryStep, PPc.inTry, PPc.rem, PPc.inside, PPc.stale]; omega)
    case h_9 n cur e =>
      split at hs <;> cases hs
      · exact stay rfl rfl (by simp [pot, e, tryStep, PPc.inTry, PPc.rem, PPc.inside, PPc.stale]; omega)
      · exact stay rfl rfl (by simp [pot, e, tryStep, PPc.inTry, PPc.rem, PPc.inside, PPc.stale]; omega)
    case h_10 n cur m e => cases hs; exact stay rfl rfl (by simp [pot, e, tryStep, PPc.inTry, PPc.rem, PPc.inside, PPc.stale]; omega)
    case h_11 n cur c rest m e => cases hs; exact stay rfl rfl (by simp [pot, e, tryStep, PPc.inTry, PPc.rem, PPc.inside, PPc.stale]; omega)
    case h_12 n cur m e =>
      split at hs <;> cases hs
      · exact stay rfl rfl (by simp [pot, e, tryStep, PPc.inTry, PPc.rem, PPc.inside, PPc.stale]; omega)
      · exact stay rfl rfl (by simp [pot, e, tryStep, PPc.inTry, PPc.rem, PPc.inside, PPc.stale]; omega)
    case h_13 n cur e =>
      split at hs <;> cases hs
      · exact done rfl (by simp [pot, e, tryStep, PPc.inTry, PPc.rem, PPc.inside, PPc.stale])
      · rename_i hne
        exact stay rfl rfl (by simp [pot, e, tryStep, PPc.inTry, PPc.rem, PPc.inside, PPc.stale, hne]; omega)
  | weak p =>
    simp only [step, weak] at hs
    split at hs
    · rename_i e; cases hs
      refine tot_same (s := s) (p := p) (by rfl) (by rfl) hw ?_
      simp [pot, e, tryStep, PPc.rem, PPc.inside, PPc.stale, cost]
    · rename_i e; cases hs
      refine tot_same (s := s) (p := p) (by rfl) (by rfl) hw ?_
      simp only [pot, e, tryStep, PPc.rem, PPc.inside, PPc.stale, cost]
      simp; omega
    · cases hs
  | _ =>
    simp only [step] at hs
    (repeat' split at hs) <;> first
      | (cases hs; done)
      | (cases hs; simp only [tryStep, cost]; exact Nat.le_of_eq (keep (by rfl) (by rfl)))

theorem ListsLe.step {N G k : Nat} {s s' : St V} {a : Act V} (hw : InWindow N a) (hl : ListsLe G s) (hs : step k s a = some s') : ListsLe G s' := by
  have key : ∀ {s' : St V} {p : Nat} {pc : PPc}, s'.gating = s.gating → s'.pp = upd s.pp p pc → pc.toRead ≤ G → ListsLe G s' := by
    intro s' p pc h1 h2 h3
    refine ⟨by rw [h1]; exact hl.1, fun q => ?_⟩
    rw [h2, upd_apply]
    split
    · exact h3
    · exact hl.2 q
  cases a with
  | callNext p n =>
    simp only [MRing.step] at hs
    split at hs
    · cases hs; exact key rfl rfl (by simp [PPc.toRead])
    · cases hs
  | callTry p n =>
    simp only [MRing.step] at hs
    split at hs
    · cases hs; exact key rfl rfl (by simp [PPc.toRead])
    · cases hs
  | pstep p =>
    have hlen := hl.1
    have hrd := hl.2 p
    simp only [MRing.step, MRing.pstep] at hs
    split at hs
    case h_1 => cases hs
    case h_5 n cur c rest m e => cases hs; rw [e] at hrd; simp only [PPc.toRead, List.length_cons] at hrd; exact key rfl rfl (by simp only [PPc.toRead]; omega)
    case h_11 n cur c rest m e => cases hs; rw [e] at hrd; simp only [PPc.toRead, List.length_cons] at hrd; exact key rfl rfl (by simp only [PPc.toRead]; omega)
    all_goals
      (try split at hs) <;> (cases hs; exact key rfl rfl (by simp only [PPc.toRead]; omega))
  | weak p =>
    simp only [MRing.step, MRing.weak] at hs
    split at hs
    · cases hs; exact key rfl rfl (by simp [PPc.toRead])
    · cases hs; exact key rfl rfl (by simp [PPc.toRead])
    · cases hs
  | addGating c => cases hw
  | removeGating c =>
    simp only [MRing.step] at hs
    cases hs
    exact ⟨Nat.le_trans (List.length_filter_le _ _) hl.1, hl.2⟩
  | _ =>
    simp only [MRing.step] at hs
    (repeat' split at hs) <;> first
      | (cases hs; done)
      | (cases hs; exact hl)

def called (as : List (Act V)) : Nat := as.countP fun | .callNext .. | .callTry .. => true | _ => false

theorem cost_le (N G : Nat) (a : Act V) : cost N G a = N * (G + 5) * called [a] + (G + 5) * weaks [a] := by
  cases a <;> simp [cost, called, weaks]

theorem called_cons (a : Act V) (as : List (Act V)) : called (a :: as) = called [a] + called as := by
  rw [show a :: as = [a] ++ as from rfl, called, List.countP_append]; rfl

theorem weaks_cons (a : Act V) (as : List (Act V)) : weaks (a :: as) = weaks [a] + weaks as := by
  rw [show a :: as = [a] ++ as from rfl, weaks, List.countP_append]; rfl

theorem run_tot {N G k : Nat} {s s' : St V} {as : List (Act V)} (hw : ∀ a ∈ as, InWindow N a) (hl : ListsLe G s) (hr : run k s as = some s') :
    trySteps k s as + tot (val N G s') N ≤ tot (val N G s) N + N * (G + 5) * called as + (G + 5) * weaks as := by
  induction as generalizing s with
  | nil => simp only [run, Option.some.injEq] at hr; subst hr; simp [trySteps, called, weaks]
  | cons a as ih =>
    simp only [run] at hr
    split at hr
    · cases hr
    · rename_i s1 hs
      have ha := hw a List.mem_cons_self
      have h1 := step_tot (N := N) (G := G) ha hl hs
      have h2 := ih (fun b hb => hw b (List.mem_cons_of_mem _ hb)) (hl.step ha hs) hr
      rw [cost_le] at h1
      simp only [trySteps, hs]
      rw [called_cons, weaks_cons]
      have e1 := Nat.mul_add (N * (G + 5)) (called [a]) (called as)
      have e2 := Nat.mul_add (G + 5) (weaks [a]) (weaks as)
      omega

/-- Calls in progress. -/
def busy (s : St V) (p : Nat) : Nat := (s.pp p).inside

theorem step_busy {N k : Nat} {s s' : St V} {a : Act V} (hw : InWindow N a) (hs : step k s a = some s') :
    tot (busy s) N + called [a] = tot (busy s') N + (if callEnds s' a then 1 else 0) := by
  have key : ∀ {s' : St V} {p : Nat} {pc : PPc} {x y : Nat}, p < N → s'.pp = upd s.pp p pc → (s.pp p).inside + x = pc.inside + y →
      tot (busy s) N + x = tot (busy s') N + y := by
    intro s' p pc x y hp h2 h3
    have := tot_eq (f := busy s) (g := busy s') hp (fun u hu => by simp only [busy, h2, upd_other _ _ hu])
    have e : busy s' p = pc.inside := by simp only [busy, h2, upd_same]
    have e' : busy s p = (s.pp p).inside := rfl
    omega
  cases a with
  | callNext p n =>
    simp only [step] at hs
    split at hs
    · rename_i hc
      cases hs
      exact key hw rfl (by simp [hc.1, PPc.inside, called, callEnds])
    · cases hs
  | callTry p n =>
    simp only [step] at hs
    split at hs
    · rename_i hc
      cases hs
      exact key hw rfl (by simp [hc.1, PPc.inside, called, callEnds])
    · cases hs
  | pstep p =>
    simp only [step, pstep] at hs
    split at hs
    case h_1 => cases hs
    all_goals
      rename_i e
      (try split at hs) <;> (cases hs; exact key hw rfl (by simp [e, PPc.inside, called, callEnds, claim]))
  | weak p =>
    simp only [step, weak] at hs
    split at hs
    · rename_i e; cases hs; exact key hw rfl (by simp [e, PPc.inside, called, callEnds])
    · rename_i e; cases hs; exact key hw rfl (by simp [e, PPc.inside, called, callEnds])
    · cases hs
  | _ =>
    have keep : s'.pp = s.pp → tot (busy s) N = tot (busy s') N := fun h => by
      have : busy s' = busy s := by funext p; simp only [busy, h]
      rw [this]
    have : s'.pp = s.pp := by
      simp only [step] at hs
      (repeat' split at hs) <;> first
        | (cases hs; done)
        | (cases hs; rfl)
    simp [called, callEnds, keep this]

theorem run_busy {N k : Nat} {s s' : St V} {as : List (Act V)} (hw : ∀ a ∈ as, InWindow N a) (hr : run k s as = some s') :
    tot (busy s) N + called as = tot (busy s') N + ended k s as := by
  induction as generalizing s with
  | nil => simp only [run, Option.some.injEq] at hr; subst hr; simp [called, ended]
  | cons a as ih =>
    simp only [run] at hr
    split at hr
    · cases hr
    · rename_i s1 hs
      have h1 := step_busy (hw a List.mem_cons_self) hs
      have h2 := ih (fun b hb => hw b (List.mem_cons_of_mem _ hb)) hr
      simp only [ended, hs]
      rw [called_cons]
      omega

theorem busy_le {s : St V} : ∀ n, tot (busy s) n ≤ n
  | 0 => Nat.le_refl _
  | n + 1 => by
    have := busy_le (s := s) n
    have : busy s n ≤ 1 := by simp only [busy]; cases s.pp n <;> simp [PPc.inside]
    simp only [tot]
    omega

theorem pot_le {N G : Nat} (hN : 0 < N) {c : Int} {pc : PPc} (h : pc.toRead ≤ G) : pot N G c pc ≤ (N + 1) * (G + 5) * pc.inside := by
  have h1 := mul_pred (G := G) hN
  have h3 : (N + 1) * (G + 5) = N * (G + 5) + (G + 5) := by rw [Nat.add_mul]; simp
  have h2 := PPc.stale_le c pc
  have h4 : (G + 5) * pc.stale c ≤ (G + 5) * 1 := Nat.mul_le_mul_left _ h2
  unfold pot
  cases pc <;> simp only [PPc.rem, PPc.inside, PPc.toRead, PPc.stale] at h h4 ⊢ <;> omega

theorem tot_val_le {N G : Nat} {s : St V} (hN : 0 < N) (hl : ListsLe G s) : ∀ n, tot (val N G s) n ≤ (N + 1) * (G + 5) * tot (busy s) n
  | 0 => by simp [tot]
  | n + 1 => by
    have := tot_val_le hN hl n
    have h2 : val N G s n ≤ _ := pot_le (c := s.cursor) hN (hl.2 n)
    simp only [tot, Nat.mul_add, busy] at *
    omega

theorem window {N G k : Nat} {s s' : St V} {as : List (Act V)} (hw : ∀ a ∈ as, InWindow N a) (hl : ListsLe G s) (hr : run k s as = some s') :
    trySteps k s as ≤ (N + 1) * (G + 5) * (ended k s as + N) + (G + 5) * weaks as := by
  have h1 := run_tot (G := G) hw hl hr
  have h2 := run_busy hw hr
  have h4 := busy_le (s := s') N
  rcases Nat.eq_zero_or_pos N with rfl | hN
  · simp only [tot, Nat.zero_mul, Nat.zero_add] at h1 h2 h4 ⊢
    omega
  · have h3 := tot_val_le hN hl N
    have h5 : (N + 1) * (G + 5) * (tot (busy s) N + called as) ≤ (N + 1) * (G + 5) * (ended k s as + N) := Nat.mul_le_mul_left _ (by omega)
    have h6 : N * (G + 5) * called as ≤ (N + 1) * (G + 5) * called as := Nat.mul_le_mul_right _ (Nat.mul_le_mul_right _ (by omega))
    rw [Nat.mul_add] at h5
    omega

end Verif.MRing
