import Verif.Lemmas.ClaimFree
import Verif.Lemmas.MultiRingLog

/-! Claims on the ring with many producers (C88): `next` alone, `next` on a full ring, and who makes a compare-and-set fail. -/

namespace Verif.MRing
open Verif Verif.Disr

variable {V : Type}

/-- Steps that `next(n)` needs when it runs alone and there is room; `w`: the cursor plus `n` minus the size of the ring. -/
def solo (G : Nat) (w : Int) (s : St V) : PPc → Nat
  | .nLoad _ => if w ≤ s.cache ∧ s.cache ≤ s.cursor then 3 else G + 7
  | .nCache _ cur => if cur = s.cursor then (if w ≤ s.cache ∧ s.cache ≤ s.cursor then 2 else G + 6) else 2 * G + 10
  | .nScan _ cur rest m =>
    if cur = s.cursor ∧ w ≤ m ∧ m ≤ s.cursor ∧ ∀ c ∈ rest, w ≤ s.seq c then rest.length + 5 else rest.length + 9 + G
  | .nSet _ m => if w ≤ m ∧ m ≤ s.cursor then 4 else G + 8
  | .nCas _ cur => if cur = s.cursor then 1 else G + 8
  | _ => 0

theorem solo_le {G : Nat} {w : Int} {s : St V} {pc : PPc} (h : pc.toRead ≤ G) : solo G w s pc ≤ 2 * G + 10 := by
  cases pc <;> simp only [solo, PPc.toRead] at * <;> (repeat' split) <;> omega

/-- A step of `next(n)` alone: it ends with its claim, or it comes closer. -/
theorem solo_step {k G : Nat} {s : St V} {p : Nat} {n : Int} (hl : ListsLe G s) (hn : n ≤ 2 ^ k) (hp : (s.pp p).inNext n)
    (hr : ∀ c ∈ s.gating, s.cursor + n - 2 ^ k ≤ s.seq c) :
    (∃ s', step k s (.pstep p) = some s' ∧ s'.pp p = .idle ∧ s'.claims = (p, s.cursor + 1, s.cursor + n) :: s.claims) ∨
    ∃ s', step k s (.pstep p) = some s' ∧ (s'.pp p).inNext n ∧ s'.cursor = s.cursor ∧ s'.gating = s.gating ∧ s'.seq = s.seq ∧ s'.claims = s.claims ∧
      solo G (s.cursor + n - 2 ^ k) s' (s'.pp p) < solo G (s.cursor + n - 2 ^ k) s (s.pp p) := by
  have hg := hl.1
  cases hq : s.pp p <;> simp only [hq, PPc.inNext] at hp
  case nLoad m =>
    subst hp
    refine .inr ⟨_, by simp only [step, pstep, hq]; rfl, by simp [PPc.inNext], by rfl, by rfl, by rfl, by rfl, ?_⟩
    simp only [solo, upd_same, if_true]
    split <;> omega
  case nCache m cur =>
    subst hp
    by_cases hc : cur + m - 2 ^ k > s.cache ∨ s.cache > cur
    · refine .inr ⟨_, by simp only [step, pstep, hq, if_pos hc]; rfl, by simp [PPc.inNext], by rfl, by rfl, by rfl, by rfl, ?_⟩
      simp only [solo, upd_same]
      by_cases he : cur = s.cursor
      · subst he
        rw [if_pos ⟨rfl, by omega, Int.le_refl _, hr⟩, if_pos rfl, if_neg (by omega)]
        omega
      · rw [if_neg (fun h => he h.1), if_neg he]
        omega
    · refine .inr ⟨_, by simp only [step, pstep, hq, if_neg hc]; rfl, by simp [PPc.inNext], by rfl, by rfl, by rfl, by rfl, ?_⟩
      simp only [solo, upd_same]
      split
      · split <;> omega
      · omega
  case nScan m cur rest x =>
    subst hp
    cases rest with
    | nil =>
      by_cases hc : cur + m - 2 ^ k > x
      · refine .inr ⟨_, by simp only [step, pstep, hq, if_pos hc]; rfl, by simp [PPc.inNext], by rfl, by rfl, by rfl, by rfl, ?_⟩
        simp only [solo, upd_same]
        rw [if_neg (c := cur = s.cursor ∧ _) (by rintro ⟨rfl, h, _⟩; omega)]
        split <;> simp only [List.length_nil] <;> omega
      · refine .inr ⟨_, by simp only [step, pstep, hq, if_neg hc]; rfl, by simp [PPc.inNext], by rfl, by rfl, by rfl, by rfl, ?_⟩
        simp only [solo, upd_same]
        by_cases h1 : cur = s.cursor ∧ s.cursor + m - 2 ^ k ≤ x ∧ x ≤ s.cursor ∧ ∀ c ∈ ([] : List Nat), s.cursor + m - 2 ^ k ≤ s.seq c
        · rw [if_pos h1, if_pos ⟨h1.2.1, h1.2.2.1⟩]; simp only [List.length_nil]; omega
        · rw [if_neg h1]; split <;> simp only [List.length_nil] <;> omega
    | cons c rest =>
      refine .inr ⟨_, by simp only [step, pstep, hq]; rfl, by simp [PPc.inNext], by rfl, by rfl, by rfl, by rfl, ?_⟩
      simp only [solo, upd_same]
      by_cases h1 : cur = s.cursor ∧ s.cursor + m - 2 ^ k ≤ x ∧ x ≤ s.cursor ∧ ∀ d ∈ c :: rest, s.cursor + m - 2 ^ k ≤ s.seq d
      · obtain ⟨e, h2, h3, h4⟩ := h1
        have h5 := h4 c List.mem_cons_self
        rw [if_pos (c := cur = s.cursor ∧ _) ⟨e, by split <;> omega, by split <;> omega, fun d hd => h4 d (List.mem_cons_of_mem _ hd)⟩, if_pos ⟨e, h2, h3, h4⟩]
        simp only [List.length_cons]; omega
      · rw [if_neg h1]
        generalize (if s.seq c < x then s.seq c else x) = y
        split <;> simp only [List.length_cons] <;> omega
  case nSet m x =>
    subst hp
    refine .inr ⟨_, by simp only [step, pstep, hq]; rfl, by simp [PPc.inNext], by rfl, by rfl, by rfl, by rfl, ?_⟩
    simp only [solo, upd_same]
    split <;> omega
  case nCas m cur =>
    subst hp
    by_cases hc : s.cursor = cur
    · subst hc
      exact .inl ⟨_, by simp only [step, pstep, hq, if_true]; rfl, by simp [claim], by rfl⟩
    · refine .inr ⟨_, by simp only [step, pstep, hq, if_neg hc]; rfl, by simp [PPc.inNext], by rfl, by rfl, by rfl, by rfl, ?_⟩
      simp only [solo, upd_same]
      rw [if_neg (c := cur = s.cursor) (fun e => hc e.symm)]
      split <;> omega

theorem solo_run {k G : Nat} {p : Nat} {n : Int} (hn : n ≤ 2 ^ k) : ∀ (r : Nat) {s : St V}, ListsLe G s → p < p + 1 → (s.pp p).inNext n →
    (∀ c ∈ s.gating, s.cursor + n - 2 ^ k ≤ s.seq c) → solo G (s.cursor + n - 2 ^ k) s (s.pp p) ≤ r →
    ∃ j s', j ≤ r ∧ run k s (List.replicate j (.pstep p)) = some s' ∧ s'.pp p = .idle ∧ s'.claims = (p, s.cursor + 1, s.cursor + n) :: s.claims := by
  intro r
  induction r with
  | zero =>
    intro s hl _ hp hr hs
    rcases solo_step hl hn hp hr with ⟨s', h1, h2, h3⟩ | ⟨s', _, _, _, _, _, _, h⟩
    · exfalso
      have : 0 < solo G (s.cursor + n - 2 ^ k) s (s.pp p) := by
        cases hq : s.pp p <;> simp only [hq, PPc.inNext] at hp <;> simp only [solo] <;> (repeat' split) <;> omega
      omega
    · omega
  | succ r ih =>
    intro s hl hlt hp hr hs
    rcases solo_step hl hn hp hr with ⟨s', h1, h2, h3⟩ | ⟨s', h1, h2, h3, h4, h5, h6, h7⟩
    · exact ⟨1, s', by omega, by simp [run, h1], h2, h3⟩
    · obtain ⟨j, s2, g1, g2, g3, g4⟩ := ih (hl.step (N := p + 1) (a := .pstep p) hlt h1) hlt h2 (by rw [h3, h4, h5]; exact hr) (by rw [h3]; omega)
      exact ⟨j + 1, s2, by omega, by simp only [List.replicate_succ, run, h1]; exact g2, g3, by rw [g4, h3, h6]⟩

/-- A step of `next(n)` when a processor leaves no room: nothing is claimed. -/
theorem full_step {k : Nat} {s : St V} {p c : Nat} {n : Int} (hi : Inv k s) (hp : (s.pp p).inNext n) (hc : c ∈ s.gating)
    (hf : s.seq c + 2 ^ k < s.cursor + n) :
    ∃ s', step k s (.pstep p) = some s' ∧ OkAct s (.pstep p) ∧ (s'.pp p).inNext n ∧ s'.cursor = s.cursor ∧ s'.gating = s.gating ∧ s'.seq = s.seq ∧
      s'.claims = s.claims := by
  have hpi := hi.prod p
  cases hq : s.pp p <;> simp only [hq, PPc.inNext] at hp
  all_goals have hok : OkAct s (.pstep p) := by intro m cur e; rw [hq] at e; cases e
  case nCas m cur =>
    subst hp
    rw [hq] at hpi
    have hne : ¬ s.cursor = cur := by
      intro e
      have := hpi.2.2.2 c hc
      omega
    exact ⟨_, by simp only [step, pstep, hq, if_neg hne]; rfl, hok, by simp [PPc.inNext], by rfl, by rfl, by rfl, by rfl⟩
  case nLoad m => subst hp; exact ⟨_, by simp only [step, pstep, hq]; rfl, hok, by simp [PPc.inNext], by rfl, by rfl, by rfl, by rfl⟩
  case nSet m x => subst hp; exact ⟨_, by simp only [step, pstep, hq]; rfl, hok, by simp [PPc.inNext], by rfl, by rfl, by rfl, by rfl⟩
  case nCache m cur =>
    subst hp
    by_cases hcd : cur + m - 2 ^ k > s.cache ∨ s.cache > cur
    · exact ⟨_, by simp only [step, pstep, hq, if_pos hcd]; rfl, hok, by simp [PPc.inNext], by rfl, by rfl, by rfl, by rfl⟩
    · exact ⟨_, by simp only [step, pstep, hq, if_neg hcd]; rfl, hok, by simp [PPc.inNext], by rfl, by rfl, by rfl, by rfl⟩
  case nScan m cur rest x =>
    subst hp
    cases rest with
    | nil =>
      by_cases hcd : cur + m - 2 ^ k > x
      · exact ⟨_, by simp only [step, pstep, hq, if_pos hcd]; rfl, hok, by simp [PPc.inNext], by rfl, by rfl, by rfl, by rfl⟩
      · exact ⟨_, by simp only [step, pstep, hq, if_neg hcd]; rfl, hok, by simp [PPc.inNext], by rfl, by rfl, by rfl, by rfl⟩
    | cons c' rest => exact ⟨_, by simp only [step, pstep, hq]; rfl, hok, by simp [PPc.inNext], by rfl, by rfl, by rfl, by rfl⟩

/-! ### Who makes a compare-and-set fail -/

/-- The cursor value a call has loaded. -/
def PPc.loaded : PPc → Option Int
  | .nCache _ cur | .nScan _ cur _ _ | .nCas _ cur => some cur
  | .tCache _ cur | .tScan _ cur _ _ | .tSet _ cur _ | .tCas _ cur => some cur
  | _ => none

/-- The claims of a producer lie below the cursor value its call in progress has loaded. -/
def OwnBelow (s : St V) : Prop := ∀ p cur, (s.pp p).loaded = some cur → -1 ≤ cur ∧ ∀ a ∈ s.claims, a.1 = p → a.2.2 ≤ cur

theorem OwnBelow.step {k : Nat} {s s' : St V} {a : Act V} (h : OwnBelow s) (hc : Chain s.claims s.cursor) (hs : step k s a = some s') : OwnBelow s' := by
  have key : ∀ {s' : St V} {p : Nat} {pc : PPc}, s'.claims = s.claims → s'.pp = upd s.pp p pc →
      (∀ cur, pc.loaded = some cur → cur = s.cursor ∨ (s.pp p).loaded = some cur) → OwnBelow s' := by
    intro s' p pc h1 h2 h3 q cur hq
    rw [h1]
    rw [h2, upd_apply] at hq
    split at hq
    · rename_i e
      subst e
      rcases h3 cur hq with rfl | h4
      · exact ⟨hc.bound.1, fun b hb _ => (hc.bound.2 b hb).2⟩
      · exact h q cur h4
    · exact h q cur hq
  have got : ∀ (p : Nat) (cur n : Int), OwnBelow (claim s p cur n) := by
    intro p cur n q cur' hq
    simp only [claim, upd_apply] at hq
    split at hq
    · cases hq
    · rename_i hne
      refine ⟨(h q cur' hq).1, fun b hb hbq => ?_⟩
      rcases List.mem_cons.mp hb with rfl | hb
      · exact absurd hbq.symm hne
      · exact (h q cur' hq).2 b hb hbq
  cases a with
  | callNext p n =>
    simp only [MRing.step] at hs
    split at hs
    · cases hs; exact key rfl rfl (by intro cur e; cases e)
    · cases hs
  | callTry p n =>
    simp only [MRing.step] at hs
    split at hs
    · cases hs; exact key rfl rfl (by intro cur e; cases e)
    · cases hs
  | pstep p =>
    simp only [MRing.step, MRing.pstep] at hs
    split at hs
    case h_1 => cases hs
    all_goals
      rename_i e
      (try split at hs) <;> cases hs <;> first
        | exact got _ _ _
        | (refine key rfl rfl ?_; intro cur e'; first | (cases e'; done) | (cases e'; exact Or.inl rfl) | (cases e'; right; rw [e]; rfl))
  | weak p =>
    simp only [MRing.step, MRing.weak] at hs
    split at hs
    · cases hs; exact key rfl rfl (by intro cur e; cases e)
    · cases hs; exact key rfl rfl (by intro cur e; cases e)
    · cases hs
  | _ =>
    simp only [MRing.step] at hs
    (repeat' split at hs) <;> first
      | (cases hs; done)
      | (cases hs; exact h)

theorem Reach.ownBelow {k : Nat} {v : V} {s : St V} (h : Reach k v s) : OwnBelow s := by
  induction h with
  | init => intro p cur hp; cases hp
  | step hr _ hs ih => exact ih.step hr.chain hs

/-- From a new ring. -/
theorem lists_run {k : Nat} {as : List (Act V)} : ∀ {s s' : St V} {G : Nat}, ListsLe G s → run k s as = some s' → ListsLe (G + added as) s' := by
  induction as with
  | nil => intro s s' G h hr; simp only [run, Option.some.injEq] at hr; subst hr; exact h
  | cons a as ih =>
    intro s s' G h hr
    simp only [run] at hr
    split at hr
    · cases hr
    · rename_i s1 hs
      have hc : added (a :: as) = added [a] + added as := by rw [show a :: as = [a] ++ as from rfl, added, List.countP_append]; rfl
      have h1 : ListsLe (G + added [a]) s1 := by
        cases a with
        | addGating c =>
          simp only [step] at hs
          cases hs
          exact ⟨by have := h.1; simp [added]; omega, fun p => Nat.le_trans (h.2 p) (Nat.le_add_right _ _)⟩
        | callNext p n => exact ListsLe.step (N := p + 1) (by exact Nat.lt_succ_self p) h hs
        | callTry p n => exact ListsLe.step (N := p + 1) (by exact Nat.lt_succ_self p) h hs
        | pstep p => exact ListsLe.step (N := p + 1) (by exact Nat.lt_succ_self p) h hs
        | weak p => exact ListsLe.step (N := p + 1) (by exact Nat.lt_succ_self p) h hs
        | _ => exact ListsLe.step (N := 0) (by exact trivial) h hs
      have := ih h1 hr
      rw [hc, ← Nat.add_assoc]; exact this

end Verif.MRing
