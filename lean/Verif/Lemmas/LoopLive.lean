import Verif.Spec.LoopLive
import Verif.Props.EventLoop

/-! Liveness of the event loop under fair scheduling. -/

namespace Verif.EvLoop
open Verif Verif.Disr Verif.Fair

variable {D : Type} {k : Nat} {σ : Nat → St D} {α : Nat → Option (Act D)}

theorem Run.reach (h : Run k σ α) (i : Nat) : Reach k (fun _ _ => True) (σ i) := by
  induction i with
  | zero => exact h.start
  | succ i ih =>
    have := h.exec i
    cases e : α i with
    | none => rw [e] at this; rw [this]; exact ih
    | some a => rw [e] at this; exact .step ih trivial (h.ok i a e) this

theorem Run.next (h : Run k σ α) (i : Nat) : σ (i + 1) = σ i ∨ ∃ a, α i = some a ∧ Eff k (σ i) (σ (i + 1)) a := by
  have := h.exec i
  cases e : α i with
  | none => rw [e] at this; exact Or.inl this
  | some a => rw [e] at this; exact Or.inr ⟨a, rfl, step_eff (h.reach i).pcInv this⟩

theorem Run.inv (h : Run k σ α) (i : Nat) : MRing.Inv k (σ i).ring := (h.reach i).inv h.hk

theorem Run.lInv (h : Run k σ α) (i : Nat) : LInv k (σ i) := (h.reach i).lInv h.hk

theorem eff_cursor {s s' : St D} {a : Act D} (e : Eff k s s' a) : s.ring.cursor ≤ s'.ring.cursor := by
  cases e <;> (rename s' = _ => h'; subst h') <;> first | exact Int.le_refl _ | (simp only [MRing.claim]; omega)

theorem Run.cursor_mono (h : Run k σ α) {i j : Nat} (hij : i ≤ j) : (σ i).ring.cursor ≤ (σ j).ring.cursor := by
  induction hij with
  | refl => exact Int.le_refl _
  | step _ ih =>
    rename_i j _
    refine Int.le_trans ih ?_
    rcases h.next j with e | ⟨a, _, e⟩
    · rw [e]
    · exact eff_cursor e

theorem eff_accepted {s s' : St D} {a : Act D} (e : Eff k s s' a) {x : Nat × String × D × Int} (hx : x ∈ s.accepted) : x ∈ s'.accepted := by
  cases e <;> (rename s' = _ => h'; subst h') <;> first | exact hx | exact List.mem_cons_of_mem _ hx

theorem Run.accepted_mono (h : Run k σ α) {i j : Nat} (hij : i ≤ j) {x : Nat × String × D × Int} (hx : x ∈ (σ i).accepted) : x ∈ (σ j).accepted := by
  induction hij with
  | refl => exact hx
  | step _ ih =>
    rename_i j _
    rcases h.next j with e | ⟨a, _, e⟩
    · rw [e]; exact ih
    · exact eff_accepted e ih

/-- A published sequence stays published. -/
theorem eff_owner {s s' : St D} {a : Act D} (e : Eff k s s' a) {x : Int} (hx : x ≤ s.ring.cursor) (ho : s.ring.owner x = none) : s'.ring.owner x = none := by
  cases e <;> (rename s' = _ => h'; subst h') <;> try exact ho
  case got => simp only [MRing.claim]; rw [if_neg (by omega)]; exact ho
  case publish p t d y h1 h2 =>
    show upd s.ring.owner y none x = none
    rw [upd_apply]; split
    · rfl
    · exact ho

theorem Run.owner_mono (h : Run k σ α) {i j : Nat} (hij : i ≤ j) {x : Int} (hx : x ≤ (σ i).ring.cursor) (ho : (σ i).ring.owner x = none) :
    (σ j).ring.owner x = none := by
  induction hij with
  | refl => exact ho
  | step hm ih =>
    rename_i j
    rcases h.next j with e | ⟨a, _, e⟩
    · rw [e]; exact ih
    · exact eff_owner e (Int.le_trans hx (h.cursor_mono hm)) ih

/-- A claimed sequence stays with its owner until it is published. -/
theorem eff_keep {s s' : St D} {a : Act D} (e : Eff k s s' a) {x : Int} {p : Nat} (hx : x ≤ s.ring.cursor) (ho : s.ring.owner x = some p) :
    s'.ring.owner x = some p ∨ s'.ring.owner x = none := by
  cases e <;> (rename s' = _ => h'; subst h') <;> try exact Or.inl ho
  case got => simp only [MRing.claim]; rw [if_neg (by omega)]; exact Or.inl ho
  case publish q t d y h1 h2 =>
    show upd s.ring.owner y none x = _ ∨ upd s.ring.owner y none x = none
    rw [upd_apply]
    split
    · exact Or.inr rfl
    · exact Or.inl ho

theorem Run.owner_keep (h : Run k σ α) {i j : Nat} (hij : i ≤ j) {x : Int} {p : Nat} (hx : x ≤ (σ i).ring.cursor) (ho : (σ i).ring.owner x = some p) :
    (σ j).ring.owner x = some p ∨ (σ j).ring.owner x = none := by
  induction hij with
  | refl => exact Or.inl ho
  | step hm ih =>
    rename_i j
    rcases h.next j with e | ⟨a, _, e⟩
    · rw [e]; exact ih
    · rcases ih with ih | ih
      · exact eff_keep e (Int.le_trans hx (h.cursor_mono hm)) ih
      · exact Or.inr (eff_owner e (Int.le_trans hx (h.cursor_mono hm)) ih)

/-! Publishers. -/

theorem pub_other {s s' : St D} {a : Act D} (e : Eff k s s' a) {p : Nat} (ho : ¬ PubTurn p a) (hk : a ≠ .weak p) (hp : s.pc p ≠ .idle) :
    s'.pc p = s.pc p ∧ s'.ring.pp p = s.ring.pp p := by
  have hc : ∀ q, a = .claim q → p ≠ q := fun q ha e => ho (by subst e; exact Or.inl ha)
  have hw : ∀ q, a = .write q → p ≠ q := fun q ha e => ho (by subst e; exact Or.inr (Or.inl ha))
  have hu : ∀ q, a = .publish q → p ≠ q := fun q ha e => ho (by subst e; exact Or.inr (Or.inr ha))
  cases e with
  | call q t d h1 h =>
    have hne : p ≠ q := fun e => hp (e ▸ h1)
    subst h; exact ⟨upd_other _ _ hne, upd_other _ _ hne⟩
  | got q t d h1 h2 h => subst h; exact ⟨upd_other _ _ (hc q rfl), upd_other _ _ (hc q rfl)⟩
  | refused q t d m h1 h => subst h; exact ⟨upd_other _ _ (hc q rfl), upd_other _ _ (hc q rfl)⟩
  | more q t d m pc' h1 h2 h3 h => subst h; exact ⟨rfl, upd_other _ _ (hc q rfl)⟩
  | weak q t d cur h1 h2 h => subst h; exact ⟨rfl, upd_other _ _ (fun e => hk (by rw [e]))⟩
  | write q t d x h1 h2 h => subst h; exact ⟨upd_other _ _ (hw q rfl), rfl⟩
  | publish q t d x h1 h2 h => subst h; exact ⟨upd_other _ _ (hu q rfl), rfl⟩
  | start h1 h => subst h; exact ⟨rfl, rfl⟩
  | run h1 h2 h => subst h; exact ⟨rfl, rfl⟩
  | lookNone nx h2 h3 h => subst h; exact ⟨rfl, rfl⟩
  | look nx h2 h3 h => subst h; exact ⟨rfl, rfl⟩
  | scan nx hi i pc' h2 h3 h => subst h; exact ⟨rfl, rfl⟩
  | event nx av h2 h3 h => subst h; exact ⟨rfl, rfl⟩
  | batchEnd nx av h2 h3 h => subst h; exact ⟨rfl, rfl⟩
  | finish nx av h2 h => subst h; exact ⟨rfl, rfl⟩
  | throw nx av h2 h => subst h; exact ⟨rfl, rfl⟩
  | stop nx h1 h2 h => subst h; exact ⟨rfl, rfl⟩

/-- The next turn of publisher `p` finds it where it is now. -/
theorem pub_next (h : Run k σ α) {p : Nat} (hf : PubFair σ α p) {n0 : Nat} (hw : ∀ n, n0 ≤ n → α n ≠ some (.weak p)) {i : Nat} (hi : n0 ≤ i) (hp : (σ i).pc p ≠ .idle) :
    ∃ j a, i ≤ j ∧ PubTurn p a ∧ step k (σ j) a = some (σ (j + 1)) ∧ (σ j).pc p = (σ i).pc p ∧ (σ j).ring.pp p = (σ i).ring.pp p := by
  have hex : ∃ j, i ≤ j ∧ ∃ a, α j = some a ∧ PubTurn p a := by
    apply Classical.byContradiction
    intro hno
    have hno : ∀ j, i ≤ j → ∀ a, α j = some a → ¬ PubTurn p a := fun j hj a ha ht => hno ⟨j, hj, a, ha, ht⟩
    have hb : ∀ j, i ≤ j → (σ j).pc p ≠ .idle := by
      intro j hj
      induction hj with
      | refl => exact hp
      | step hm ih =>
        rename_i j
        rcases h.next j with e | ⟨a, ha, e⟩
        · rw [e]; exact ih
        · rw [(pub_other e (hno j hm a ha) (fun e => hw j (Nat.le_trans hi hm) (by rw [ha, e])) ih).1]; exact ih
    obtain ⟨j, hj, a, h1, h2⟩ := hf.turn i hb
    exact hno j hj a h1 h2
  obtain ⟨j, hj, a, hja, ht⟩ := hex
  obtain ⟨d, rfl⟩ : ∃ d, j = i + d := ⟨j - i, by omega⟩
  clear hj
  have here : ∀ i a, α i = some a → step k (σ i) a = some (σ (i + 1)) := by
    intro i a hi
    have := h.exec i
    rw [hi] at this
    exact this
  induction d generalizing i with
  | zero => exact ⟨i, a, Nat.le_refl _, ht, here i a hja, rfl, rfl⟩
  | succ d ih =>
    rcases h.next i with e | ⟨b, hb, e⟩
    · obtain ⟨j, c, j1, j2, j3, j4, j5⟩ := ih (i := i + 1) (by omega) (by rw [e]; exact hp) (by rw [← hja]; congr 1; omega)
      exact ⟨j, c, by omega, j2, j3, by rw [j4, e], by rw [j5, e]⟩
    · by_cases hbt : PubTurn p b
      · exact ⟨i, b, Nat.le_refl _, hbt, here i b hb, rfl, rfl⟩
      · have e' := pub_other e hbt (fun e => hw i hi (by rw [hb, e])) hp
        obtain ⟨j, c, j1, j2, j3, j4, j5⟩ := ih (i := i + 1) (by omega) (by rw [e'.1]; exact hp) (by rw [← hja]; congr 1; omega)
        exact ⟨j, c, by omega, j2, j3, by rw [j4, e'.1], by rw [j5, e'.2]⟩

/-- A publisher that wrote its slot publishes it and returns. -/
theorem written_returns (h : Run k σ α) {p : Nat} (hf : PubFair σ α p) {n0 : Nat} (hw : ∀ n, n0 ≤ n → α n ≠ some (.weak p)) {i : Nat} (hi : n0 ≤ i) {t : String} {d : D} {x : Int} (hp : (σ i).pc p = .written t d x) :
    ∃ j, i ≤ j ∧ (σ j).pc p = .idle ∧ (σ j).ring.owner x = none := by
  obtain ⟨j, a, j1, j2, j3, j4, j5⟩ := pub_next h hf hw (i := i) hi (by rw [hp]; exact fun e => by cases e)
  rw [hp] at j4
  have hown := (((h.lInv j).pown p t d x (Or.inr j4))).1
  refine ⟨j + 1, by omega, ?_⟩
  rcases j2 with rfl | rfl | rfl
  · simp [step, j4] at j3
  · simp [step, j4] at j3
  · simp only [step, j4, MRing.step, hown, if_true, Option.map_some, Option.some.injEq] at j3
    rw [← j3]
    exact ⟨upd_same _ _ _, upd_same _ _ _⟩

theorem claimed_returns (h : Run k σ α) {p : Nat} (hf : PubFair σ α p) {n0 : Nat} (hw : ∀ n, n0 ≤ n → α n ≠ some (.weak p)) {i : Nat} (hi : n0 ≤ i) {t : String} {d : D} {x : Int} (hp : (σ i).pc p = .claimed t d x) :
    ∃ j, i ≤ j ∧ (σ j).pc p = .idle ∧ (σ j).ring.owner x = none := by
  obtain ⟨j, a, j1, j2, j3, j4, j5⟩ := pub_next h hf hw (i := i) hi (by rw [hp]; exact fun e => by cases e)
  rw [hp] at j4
  have hown := (((h.lInv j).pown p t d x (Or.inl j4))).1
  rcases j2 with rfl | rfl | rfl
  · simp [step, j4] at j3
  · simp only [step, j4, MRing.step, hown, if_true, Option.map_some, Option.some.injEq] at j3
    obtain ⟨m, m1, m2⟩ := written_returns h hf hw (i := j + 1) (by omega) (t := t) (d := d) (x := x) (by rw [← j3]; exact upd_same _ _ _)
    exact ⟨m, by omega, m2⟩
  · simp [step, j4] at j3

/-- Every claimed sequence is published in the end. -/
theorem published (h : Run k σ α) (hf : ∀ p, PubFair σ α p) {i : Nat} {x : Int} :
    ∃ j, i ≤ j ∧ (σ j).ring.owner x = none := by
  cases ho : (σ i).ring.owner x with
  | none => exact ⟨i, Nat.le_refl _, ho⟩
  | some p =>
    obtain ⟨n0, hw⟩ := (hf p).weak
    have hx := ((h.inv i).own_rng x p ho).2
    cases ho' : (σ (max i n0)).ring.owner x with
    | none => exact ⟨_, by omega, ho'⟩
    | some q =>
      have hq : q = p := by
        rcases h.owner_keep (show i ≤ max i n0 by omega) hx ho with e | e
        · rw [e] at ho'; cases ho'; rfl
        · rw [e] at ho'; cases ho'
      subst hq
      obtain ⟨t, d, hh | hh⟩ := (h.lInv _).own x q ho'
      · obtain ⟨j, j1, _, j3⟩ := claimed_returns h (hf q) hw (by omega) hh
        exact ⟨j, by omega, j3⟩
      · obtain ⟨j, j1, _, j3⟩ := written_returns h (hf q) hw (by omega) hh
        exact ⟨j, by omega, j3⟩

theorem all_published (h : Run k σ α) (hf : ∀ p, PubFair σ α p) {i : Nat} (n : Nat) (hn : (n : Int) ≤ (σ i).ring.cursor + 1) :
    ∃ j, i ≤ j ∧ ∀ x : Int, 0 ≤ x → x < n → (σ j).ring.owner x = none := by
  induction n with
  | zero => exact ⟨i, Nat.le_refl _, fun x h0 h1 => by omega⟩
  | succ n ih =>
    obtain ⟨j, j1, j2⟩ := ih (by omega)
    obtain ⟨m, m1, m2⟩ := published h hf (i := j) (x := n)
    refine ⟨m, by omega, fun x h0 h1 => ?_⟩
    by_cases e : x = n
    · rw [e]; exact m2
    · exact h.owner_mono m1 (by have := h.cursor_mono j1; omega) (j2 x h0 (by omega))

/-- One attempt of `try_next` from any point of it: the call ends, the sequence is claimed, or it starts again after another publisher
was faster. -/
theorem attempt (h : Run k σ α) {p : Nat} (hf : PubFair σ α p) {n0 : Nat} (hw : ∀ n, n0 ≤ n → α n ≠ some (.weak p)) (c0 : Int) : ∀ {i : Nat} {t : String} {d : D}, n0 ≤ i → (σ i).pc p = .claiming t d →
    (∃ n cur, (σ i).ring.pp p = .tCache n cur ∧ c0 ≤ cur) ∨ (∃ n cur rest m, (σ i).ring.pp p = .tScan n cur rest m ∧ c0 ≤ cur) ∨
      (∃ n cur m, (σ i).ring.pp p = .tSet n cur m ∧ c0 ≤ cur) ∨ (∃ n cur, (σ i).ring.pp p = .tCas n cur ∧ c0 ≤ cur) →
    ∃ j, i ≤ j ∧ ((σ j).pc p = .idle ∨ (∃ x, (σ j).pc p = .claimed t d x) ∨
      ((σ j).pc p = .claiming t d ∧ (∃ n, (σ j).ring.pp p = .tLoad n) ∧ c0 < (σ j).ring.cursor)) := by
  -- the compare-and-set
  have hcas : ∀ {i : Nat} {t : String} {d : D}, n0 ≤ i → (σ i).pc p = .claiming t d → (∃ n cur, (σ i).ring.pp p = .tCas n cur ∧ c0 ≤ cur) →
      ∃ j, i ≤ j ∧ ((σ j).pc p = .idle ∨ (∃ x, (σ j).pc p = .claimed t d x) ∨
        ((σ j).pc p = .claiming t d ∧ (∃ n, (σ j).ring.pp p = .tLoad n) ∧ c0 < (σ j).ring.cursor)) := by
    rintro i t d hi hp ⟨n, cur, hq, hc⟩
    obtain ⟨j, a, j1, j2, j3, j4, j5⟩ := pub_next h hf hw (i := i) hi (by rw [hp]; exact fun e => by cases e)
    rw [hp] at j4
    rw [hq] at j5
    refine ⟨j + 1, by omega, ?_⟩
    have hpi := (h.inv j).prod p
    rw [j5] at hpi
    rcases j2 with rfl | rfl | rfl
    · simp only [step, j4, MRing.step, MRing.pstep, j5] at j3
      split at j3
      · rename_i hcur
        simp only [Option.map_some, Option.some.injEq] at j3
        right; left
        have h1 : (MRing.claim (σ j).ring p cur n).pp p = .idle := upd_same _ _ _
        have h2 : (MRing.claim (σ j).ring p cur n).cursor ≠ (σ j).ring.cursor := by
          have e : (MRing.claim (σ j).ring p cur n).cursor = cur + n := rfl
          have := hpi.1
          omega
        rw [← j3]
        unfold afterClaim
        rw [if_pos h1, if_neg h2]
        exact ⟨_, upd_same _ _ _⟩
      · rename_i hcur
        simp only [Option.map_some, Option.some.injEq] at j3
        right; right
        have hlt : cur < (σ j).ring.cursor := by have := hpi.2.1; omega
        rw [← j3]
        simp only [afterClaim, upd_same]
        rw [if_neg (fun e => by cases e)]
        exact ⟨j4, ⟨n, upd_same _ _ _⟩, by show c0 < (σ j).ring.cursor; omega⟩
    · simp [step, j4] at j3
    · simp [step, j4] at j3
  have hset : ∀ {i : Nat} {t : String} {d : D}, n0 ≤ i → (σ i).pc p = .claiming t d → (∃ n cur m, (σ i).ring.pp p = .tSet n cur m ∧ c0 ≤ cur) →
      ∃ j, i ≤ j ∧ ((σ j).pc p = .idle ∨ (∃ x, (σ j).pc p = .claimed t d x) ∨
        ((σ j).pc p = .claiming t d ∧ (∃ n, (σ j).ring.pp p = .tLoad n) ∧ c0 < (σ j).ring.cursor)) := by
    rintro i t d hi hp ⟨n, cur, m, hq, hc⟩
    obtain ⟨j, a, j1, j2, j3, j4, j5⟩ := pub_next h hf hw (i := i) hi (by rw [hp]; exact fun e => by cases e)
    rw [hp] at j4
    rw [hq] at j5
    rcases j2 with rfl | rfl | rfl
    · simp only [step, j4, MRing.step, MRing.pstep, j5] at j3
      split at j3
      · simp only [Option.map_some, Option.some.injEq] at j3
        refine ⟨j + 1, by omega, Or.inl ?_⟩
        rw [← j3]
        simp only [afterClaim, upd_same, if_true]
      · simp only [Option.map_some, Option.some.injEq] at j3
        have e1 : (σ (j + 1)).pc p = .claiming t d ∧ (σ (j + 1)).ring.pp p = .tCas n cur := by
          rw [← j3]
          simp only [afterClaim, upd_same]
          rw [if_neg (fun e => by cases e)]
          exact ⟨j4, upd_same _ _ _⟩
        obtain ⟨l, l1, l2⟩ := hcas (by omega) e1.1 ⟨n, cur, e1.2, hc⟩
        exact ⟨l, by omega, l2⟩
    · simp [step, j4] at j3
    · simp [step, j4] at j3
  have hscan : ∀ (rest : List Nat) {i : Nat} {t : String} {d : D}, n0 ≤ i → (σ i).pc p = .claiming t d →
      (∃ n cur m, (σ i).ring.pp p = .tScan n cur rest m ∧ c0 ≤ cur) →
      ∃ j, i ≤ j ∧ ((σ j).pc p = .idle ∨ (∃ x, (σ j).pc p = .claimed t d x) ∨
        ((σ j).pc p = .claiming t d ∧ (∃ n, (σ j).ring.pp p = .tLoad n) ∧ c0 < (σ j).ring.cursor)) := by
    intro rest
    induction rest with
    | nil =>
      rintro i t d hi hp ⟨n, cur, m, hq, hc⟩
      obtain ⟨j, a, j1, j2, j3, j4, j5⟩ := pub_next h hf hw (i := i) hi (by rw [hp]; exact fun e => by cases e)
      rw [hp] at j4
      rw [hq] at j5
      rcases j2 with rfl | rfl | rfl
      · simp only [step, j4, MRing.step, MRing.pstep, j5, Option.map_some, Option.some.injEq] at j3
        have e1 : (σ (j + 1)).pc p = .claiming t d ∧ (σ (j + 1)).ring.pp p = .tSet n cur m := by
          rw [← j3]
          simp only [afterClaim, upd_same]
          rw [if_neg (fun e => by cases e)]
          exact ⟨j4, upd_same _ _ _⟩
        obtain ⟨l, l1, l2⟩ := hset (by omega) e1.1 ⟨n, cur, m, e1.2, hc⟩
        exact ⟨l, by omega, l2⟩
      · simp [step, j4] at j3
      · simp [step, j4] at j3
    | cons c rest ih =>
      rintro i t d hi hp ⟨n, cur, m, hq, hc⟩
      obtain ⟨j, a, j1, j2, j3, j4, j5⟩ := pub_next h hf hw (i := i) hi (by rw [hp]; exact fun e => by cases e)
      rw [hp] at j4
      rw [hq] at j5
      rcases j2 with rfl | rfl | rfl
      · simp only [step, j4, MRing.step, MRing.pstep, j5, Option.map_some, Option.some.injEq] at j3
        have e1 : (σ (j + 1)).pc p = .claiming t d ∧
            (σ (j + 1)).ring.pp p = .tScan n cur rest (if (σ j).ring.seq c < m then (σ j).ring.seq c else m) := by
          rw [← j3]
          simp only [afterClaim, upd_same]
          rw [if_neg (fun e => by cases e)]
          exact ⟨j4, upd_same _ _ _⟩
        obtain ⟨l, l1, l2⟩ := ih (by omega) e1.1 ⟨n, cur, _, e1.2, hc⟩
        exact ⟨l, by omega, l2⟩
      · simp [step, j4] at j3
      · simp [step, j4] at j3
  rintro i t d hi hp (⟨n, cur, hq, hc⟩ | ⟨n, cur, rest, m, hq, hc⟩ | hq | hq)
  · obtain ⟨j, a, j1, j2, j3, j4, j5⟩ := pub_next h hf hw (i := i) hi (by rw [hp]; exact fun e => by cases e)
    rw [hp] at j4
    rw [hq] at j5
    rcases j2 with rfl | rfl | rfl
    · simp only [step, j4, MRing.step, MRing.pstep, j5] at j3
      split at j3
      · simp only [Option.map_some, Option.some.injEq] at j3
        have e1 : (σ (j + 1)).pc p = .claiming t d ∧ (σ (j + 1)).ring.pp p = .tScan n cur (σ j).ring.gating (toInt32 cur) := by
          rw [← j3]
          simp only [afterClaim, upd_same]
          rw [if_neg (fun e => by cases e)]
          exact ⟨j4, upd_same _ _ _⟩
        obtain ⟨l, l1, l2⟩ := hscan _ (by omega) e1.1 ⟨n, cur, _, e1.2, hc⟩
        exact ⟨l, by omega, l2⟩
      · simp only [Option.map_some, Option.some.injEq] at j3
        have e1 : (σ (j + 1)).pc p = .claiming t d ∧ (σ (j + 1)).ring.pp p = .tCas n cur := by
          rw [← j3]
          simp only [afterClaim, upd_same]
          rw [if_neg (fun e => by cases e)]
          exact ⟨j4, upd_same _ _ _⟩
        obtain ⟨l, l1, l2⟩ := hcas (by omega) e1.1 ⟨n, cur, e1.2, hc⟩
        exact ⟨l, by omega, l2⟩
    · simp [step, j4] at j3
    · simp [step, j4] at j3
  · exact hscan rest hi hp ⟨n, cur, m, hq, hc⟩
  · exact hset hi hp hq
  · exact hcas hi hp hq

theorem tload_returns (h : Run k σ α) {p : Nat} (hf : PubFair σ α p) {n0 : Nat} (hw : ∀ n, n0 ≤ n → α n ≠ some (.weak p)) (N : Nat) : ∀ {i : Nat} {t : String} {d : D}, n0 ≤ i → (σ i).pc p = .claiming t d →
    (∃ n, (σ i).ring.pp p = .tLoad n) → (2 ^ 31 - (σ i).ring.cursor).toNat ≤ N → ∃ j, i ≤ j ∧ (σ j).pc p = .idle := by
  induction N with
  | zero =>
    intro i t d _ _ _ hn
    have := (h.reach i).small.cur
    omega
  | succ N ih =>
    intro i t d hi hp ⟨n, hq⟩ hn
    obtain ⟨j, a, j1, j2, j3, j4, j5⟩ := pub_next h hf hw (i := i) hi (by rw [hp]; exact fun e => by cases e)
    rw [hp] at j4
    rw [hq] at j5
    have hm := h.cursor_mono j1
    rcases j2 with rfl | rfl | rfl
    · simp only [step, j4, MRing.step, MRing.pstep, j5, Option.map_some, Option.some.injEq] at j3
      have e1 : (σ (j + 1)).pc p = .claiming t d ∧ (σ (j + 1)).ring.pp p = .tCache n (σ j).ring.cursor := by
        rw [← j3]
        simp only [afterClaim, upd_same]
        rw [if_neg (fun e => by cases e)]
        exact ⟨j4, upd_same _ _ _⟩
      obtain ⟨l, l1, l2 | ⟨x, l2⟩ | ⟨l2, l3, l4⟩⟩ := attempt h hf hw (σ j).ring.cursor (by omega) e1.1 (Or.inl ⟨n, _, e1.2, Int.le_refl _⟩)
      · exact ⟨l, by omega, l2⟩
      · obtain ⟨m, m1, m2, _⟩ := claimed_returns h hf hw (by omega) l2
        exact ⟨m, by omega, m2⟩
      · obtain ⟨m, m1, m2⟩ := ih (by omega) l2 l3 (by have := (h.reach i).small.cur; omega)
        exact ⟨m, by omega, m2⟩
    · simp [step, j4] at j3
    · simp [step, j4] at j3

/-- From wherever `p` is in `publish`, once no spurious failure comes any more. -/
theorem returns (h : Run k σ α) {p : Nat} (hf : PubFair σ α p) {n0 : Nat} (hw : ∀ n, n0 ≤ n → α n ≠ some (.weak p)) {i : Nat} (hi : n0 ≤ i) : ∃ j, i ≤ j ∧ (σ j).pc p = .idle := by
  cases hp : (σ i).pc p with
  | idle => exact ⟨i, Nat.le_refl _, hp⟩
  | written t d x => obtain ⟨j, j1, j2, _⟩ := written_returns h hf hw hi hp; exact ⟨j, j1, j2⟩
  | claimed t d x => obtain ⟨j, j1, j2, _⟩ := claimed_returns h hf hw hi hp; exact ⟨j, j1, j2⟩
  | claiming t d =>
    have ht := (h.reach i).pcInv p
    rw [hp] at ht
    have key : ∀ c0 : Int, ((∃ n cur, (σ i).ring.pp p = .tCache n cur ∧ c0 ≤ cur) ∨ (∃ n cur rest m, (σ i).ring.pp p = .tScan n cur rest m ∧ c0 ≤ cur) ∨
        (∃ n cur m, (σ i).ring.pp p = .tSet n cur m ∧ c0 ≤ cur) ∨ (∃ n cur, (σ i).ring.pp p = .tCas n cur ∧ c0 ≤ cur)) →
        ∃ j, i ≤ j ∧ (σ j).pc p = .idle := by
      intro c0 hq
      obtain ⟨l, l1, l2 | ⟨x, l2⟩ | ⟨l2, l3, l4⟩⟩ := attempt h hf hw c0 hi hp hq
      · exact ⟨l, l1, l2⟩
      · obtain ⟨m, m1, m2, _⟩ := claimed_returns h hf hw (by omega) l2
        exact ⟨m, by omega, m2⟩
      · obtain ⟨m, m1, m2⟩ := tload_returns h hf hw _ (by omega) l2 l3 (Nat.le_refl _)
        exact ⟨m, by omega, m2⟩
    cases hq : (σ i).ring.pp p with
    | tLoad n => exact tload_returns h hf hw _ hi hp ⟨n, hq⟩ (Nat.le_refl _)
    | tCache n cur => exact key cur (Or.inl ⟨n, cur, hq, Int.le_refl _⟩)
    | tScan n cur rest m => exact key cur (Or.inr (Or.inl ⟨n, cur, rest, m, hq, Int.le_refl _⟩))
    | tSet n cur m => exact key cur (Or.inr (Or.inr (Or.inl ⟨n, cur, m, hq, Int.le_refl _⟩)))
    | tCas n cur => exact key cur (Or.inr (Or.inr (Or.inr ⟨n, cur, hq, Int.le_refl _⟩)))
    | _ => rw [hq] at ht; exact ht.elim

/-! The loop. -/

theorem loop_other {s s' : St D} {a : Act D} (e : Eff k s s' a) (ho : ¬ LoopTurn a) (hns : a ≠ .stop) (hp : s.ring.cp 0 ≠ .idle)
    (hst : s.started = true) : s'.ring.cp 0 = s.ring.cp 0 ∧ s'.ring.seq 0 = s.ring.seq 0 ∧ s'.ring.base 0 = s.ring.base 0 ∧
      s'.started = true ∧ s'.ring.gating = s.ring.gating := by
  cases e with
  | start h1 h => rw [hst] at h1; cases h1
  | run h1 h2 h => exact absurd h2 hp
  | lookNone nx h2 h3 h => exact absurd (Or.inl rfl) ho
  | look nx h2 h3 h => exact absurd (Or.inl rfl) ho
  | scan nx hi i pc' h2 h3 h => exact absurd (Or.inr (Or.inl rfl)) ho
  | event nx av h2 h3 h => exact absurd (Or.inr (Or.inr (Or.inl rfl))) ho
  | batchEnd nx av h2 h3 h => exact absurd (Or.inr (Or.inr (Or.inl rfl))) ho
  | finish nx av h2 h => exact absurd (Or.inr (Or.inr (Or.inr (Or.inl rfl)))) ho
  | throw nx av h2 h => exact absurd (Or.inr (Or.inr (Or.inr (Or.inr rfl)))) ho
  | stop nx h1 h2 h => exact absurd rfl hns
  | call q t d h1 h => subst h; exact ⟨rfl, rfl, rfl, hst, rfl⟩
  | got q t d h1 h2 h => subst h; exact ⟨rfl, rfl, rfl, hst, rfl⟩
  | refused q t d m h1 h => subst h; exact ⟨rfl, rfl, rfl, hst, rfl⟩
  | more q t d m pc' h1 h2 h3 h => subst h; exact ⟨rfl, rfl, rfl, hst, rfl⟩
  | weak q t d cur h1 h2 h => subst h; exact ⟨rfl, rfl, rfl, hst, rfl⟩
  | write q t d x h1 h2 h => subst h; exact ⟨rfl, rfl, rfl, hst, rfl⟩
  | publish q t d x h1 h2 h => subst h; exact ⟨rfl, rfl, rfl, hst, rfl⟩

theorem started_gating {P : St D → Act D → Prop} {s : St D} (h : Reach k P s) : s.started = true → 0 ∈ s.ring.gating := by
  induction h with
  | init => intro h; cases h
  | @step s s' a hr _ hok hs ih =>
    cases step_eff hr.pcInv hs <;> (rename s' = _ => h'; subst h') <;> first
      | exact ih
      | (intro _; simp; done)
      | (intro h; cases h)

theorem LoopAlive.started (h : Run k σ α) {i : Nat} (ha : LoopAlive σ α i) : (σ i).started = true := by
  cases e : (σ i).started with
  | true => rfl
  | false => exact absurd ((h.reach i).stopped e) ha.running

theorem LoopAlive.gating (h : Run k σ α) {i : Nat} (ha : LoopAlive σ α i) : 0 ∈ (σ i).ring.gating := started_gating (h.reach i) (ha.started h)

theorem loop_turn {s s' : St D} {a : Act D} (e : Eff k s s' a) (ho : LoopTurn a) :
    s'.ring.cp 0 ≠ .idle ∧ s'.ring.base 0 = s.ring.base 0 := by
  have key : ∀ {f : Nat → MRing.CPc} {v : MRing.CPc}, v ≠ .idle → upd f 0 v 0 ≠ .idle := fun {f v} hv => by rw [upd_same]; exact hv
  cases e with
  | lookNone nx h2 h3 h => subst h; exact ⟨by rw [h2]; nofun, rfl⟩
  | look nx h2 h3 h => subst h; exact ⟨by dsimp only; exact key nofun, rfl⟩
  | scan nx hi i pc' h2 h3 h => subst h; exact ⟨by dsimp only; exact key (by rcases h3 with rfl | ⟨av, rfl⟩ <;> nofun), rfl⟩
  | event nx av h2 h3 h => subst h; exact ⟨by dsimp only; exact key nofun, rfl⟩
  | batchEnd nx av h2 h3 h => subst h; exact ⟨by dsimp only; exact key nofun, rfl⟩
  | finish nx av h2 h => subst h; exact ⟨by dsimp only; exact key nofun, rfl⟩
  | throw nx av h2 h => subst h; exact ⟨by dsimp only; exact key nofun, rfl⟩
  | _ => rcases ho with ho | ho | ho | ho | ho <;> cases ho

theorem LoopAlive.step (h : Run k σ α) {i : Nat} (ha : LoopAlive σ α i) : LoopAlive σ α (i + 1) ∧ (σ (i + 1)).ring.base 0 = (σ i).ring.base 0 := by
  have key : (σ (i + 1)).ring.cp 0 ≠ .idle ∧ (σ (i + 1)).ring.base 0 = (σ i).ring.base 0 := by
    rcases h.next i with e | ⟨a, hi, e⟩
    · rw [e]; exact ⟨ha.running, rfl⟩
    · by_cases ho : LoopTurn a
      · exact loop_turn e ho
      · obtain ⟨h1, _, h3, _, _⟩ := loop_other e ho (fun e => ha.stays i (Nat.le_refl _) (by rw [hi, e])) ha.running (ha.started h)
        exact ⟨by rw [h1]; exact ha.running, h3⟩
  exact ⟨⟨key.1, fun j hj => ha.stays j (by omega), ha.fair⟩, key.2⟩

theorem LoopAlive.from (h : Run k σ α) {i j : Nat} (ha : LoopAlive σ α i) (hij : i ≤ j) : LoopAlive σ α j ∧ (σ j).ring.base 0 = (σ i).ring.base 0 := by
  induction hij with
  | refl => exact ⟨ha, rfl⟩
  | step _ ih => exact ⟨(ih.1.step h).1, by rw [(ih.1.step h).2, ih.2]⟩

theorem LoopAlive.next_own (h : Run k σ α) {i : Nat} (ha : LoopAlive σ α i) :
    ∃ j a, i ≤ j ∧ LoopTurn a ∧ EvLoop.step k (σ j) a = some (σ (j + 1)) ∧ (σ j).ring.cp 0 = (σ i).ring.cp 0 ∧ (σ j).ring.seq 0 = (σ i).ring.seq 0 := by
  obtain ⟨j, hj, a, hja, ho⟩ := ha.fair i (fun j hj => (ha.from h hj).1.running)
  obtain ⟨d, rfl⟩ : ∃ d, j = i + d := ⟨j - i, by omega⟩
  clear hj
  have here : ∀ i a, α i = some a → EvLoop.step k (σ i) a = some (σ (i + 1)) := by
    intro i a hi
    have := h.exec i
    rw [hi] at this
    exact this
  induction d generalizing i with
  | zero => exact ⟨i, a, Nat.le_refl _, ho, here i a hja, rfl, rfl⟩
  | succ d ih =>
    rcases h.next i with e | ⟨b, hb, e⟩
    · obtain ⟨j, c, j1, j2, j3, j4, j5⟩ := ih (ha.step h).1 (by rw [← hja]; congr 1; omega)
      exact ⟨j, c, by omega, j2, j3, by rw [j4, e], by rw [j5, e]⟩
    · by_cases hbt : LoopTurn b
      · exact ⟨i, b, Nat.le_refl _, hbt, here i b hb, rfl, rfl⟩
      · obtain ⟨e1, e2, _⟩ := loop_other e hbt (fun e => ha.stays i (Nat.le_refl _) (by rw [hb, e])) ha.running (ha.started h)
        obtain ⟨j, c, j1, j2, j3, j4, j5⟩ := ih (ha.step h).1 (by rw [← hja]; congr 1; omega)
        exact ⟨j, c, by omega, j2, j3, by rw [j4, e1], by rw [j5, e2]⟩

theorem LoopAlive.seq_mono (h : Run k σ α) {i j : Nat} (ha : LoopAlive σ α i) (hij : i ≤ j) : (σ i).ring.seq 0 ≤ (σ j).ring.seq 0 := by
  induction hij with
  | refl => exact Int.le_refl _
  | step hm ih =>
    rename_i j
    refine Int.le_trans ih ?_
    have haj := (ha.from h hm).1
    rcases h.next j with e | ⟨a, hi, e⟩
    · rw [e]
    · by_cases ho : LoopTurn a
      · have hc := (h.inv j).cons 0 (haj.gating h)
        cases e with
        | batchEnd nx av h2 h3 h' =>
          rw [h2] at hc; simp only [MRing.CInv] at hc
          rw [h']; dsimp only; rw [upd_same]; omega
        | throw nx av h2 h' =>
          rw [h2] at hc; simp only [MRing.CInv] at hc
          rw [h']; dsimp only; rw [upd_same]; omega
        | lookNone nx h2 h3 h' => rw [h']
        | look nx h2 h3 h' => rw [h']
        | scan nx hi i pc' h2 h3 h' => rw [h']
        | event nx av h2 h3 h' => rw [h']
        | finish nx av h2 h' => rw [h']
        | _ => rcases ho with ho | ho | ho | ho | ho <;> cases ho
      · rw [(loop_other e ho (fun e => haj.stays j (Nat.le_refl _) (by rw [hi, e])) haj.running (haj.started h)).2.1]

/-- A batch comes to its end. -/
theorem LoopAlive.batch_done (h : Run k σ α) (n : Nat) : ∀ {i : Nat} (_ : LoopAlive σ α i) {nx av : Int},
    (((σ i).ring.cp 0 = .batch nx av ∧ 2 * (av + 1 - nx).toNat + 1 ≤ n) ∨ ((σ i).ring.cp 0 = .handle nx av ∧ 2 * (av + 1 - nx).toNat ≤ n)) →
    ∃ j, i ≤ j ∧ (∃ nx', (σ j).ring.cp 0 = .wait nx') ∧ min nx av ≤ (σ j).ring.seq 0 := by
  induction n with
  | zero =>
    intro i ha nx av hc
    rcases hc with ⟨_, h2⟩ | ⟨h1, h2⟩
    · omega
    · have := (h.inv i).cons 0 (ha.gating h)
      rw [h1] at this; simp only [MRing.CInv] at this
      omega
  | succ n ih =>
    intro i ha nx av hc
    obtain ⟨j, a, hij, ho, hs, e1, e2⟩ := ha.next_own h
    have ha' := (ha.from h (Nat.le_succ_of_le hij)).1
    rcases hc with ⟨h1, h2⟩ | ⟨h1, h2⟩
    · rw [h1] at e1
      rcases ho with rfl | rfl | rfl | rfl | rfl
      · simp [EvLoop.step, lift, MRing.step, e1] at hs
      · simp [EvLoop.step, lift, MRing.step, e1] at hs
      · simp only [EvLoop.step, e1] at hs
        split at hs
        · rename_i hle
          simp only [lift, MRing.step, e1, hle, if_true, Option.map_some, Option.some.injEq] at hs
          have e : (σ (j + 1)).ring.cp 0 = .handle nx av := by rw [← hs]; dsimp only; exact upd_same _ _ _
          obtain ⟨m, m1, m2, m3⟩ := ih ha' (nx := nx) (av := av) (Or.inr ⟨e, by omega⟩)
          exact ⟨m, by omega, m2, m3⟩
        · rename_i hle
          simp only [lift, MRing.step, e1, hle, if_false, Option.map_some, Option.some.injEq] at hs
          refine ⟨j + 1, by omega, ⟨nx, by rw [← hs]; dsimp only; exact upd_same _ _ _⟩, ?_⟩
          have : (σ (j + 1)).ring.seq 0 = av := by rw [← hs]; dsimp only; exact upd_same _ _ _
          omega
      · simp [EvLoop.step, e1] at hs
      · simp [EvLoop.step, lift, MRing.step, e1] at hs
    · have hi := (h.inv i).cons 0 (ha.gating h)
      rw [h1] at hi; simp only [MRing.CInv] at hi
      rw [h1] at e1
      rcases ho with rfl | rfl | rfl | rfl | rfl
      · simp [EvLoop.step, lift, MRing.step, e1] at hs
      · simp [EvLoop.step, lift, MRing.step, e1] at hs
      · simp [EvLoop.step, e1] at hs
      · simp only [EvLoop.step, e1, lift, MRing.step, Option.map_some, Option.some.injEq] at hs
        have e : (σ (j + 1)).ring.cp 0 = .batch (nx + 1) av := by rw [← hs]; dsimp only; exact upd_same _ _ _
        obtain ⟨m, m1, m2, m3⟩ := ih ha' (nx := nx + 1) (av := av) (Or.inl ⟨e, by omega⟩)
        exact ⟨m, by omega, m2, by omega⟩
      · simp only [EvLoop.step, e1, lift, MRing.step, Option.map_some, Option.some.injEq] at hs
        refine ⟨j + 1, by omega, ⟨nx + 1, by rw [← hs]; dsimp only; exact upd_same _ _ _⟩, ?_⟩
        have : (σ (j + 1)).ring.seq 0 = nx := by rw [← hs]; dsimp only; exact upd_same _ _ _
        omega

/-- The search for the highest published sequence comes to its end, and finds at least `x` if everything up to `x` is published. -/
theorem LoopAlive.scan_done (h : Run k σ α) {x : Int} (n : Nat) : ∀ {i : Nat} (_ : LoopAlive σ α i) {nx hi c : Int},
    (σ i).ring.cp 0 = .scan nx hi c → (hi + 1 - c).toNat ≤ n →
    ∃ j av, i ≤ j ∧ (σ j).ring.cp 0 = .batch nx av ∧ (σ j).ring.seq 0 = (σ i).ring.seq 0 ∧
      ((∀ y, 0 ≤ y → y ≤ x → (σ i).ring.owner y = none) → x ≤ hi → x ≤ av) := by
  induction n with
  | zero =>
    intro i ha nx hi c hc hn
    obtain ⟨j, a, hij, ho, hs, e1, e2⟩ := ha.next_own h
    rw [hc] at e1
    rcases ho with rfl | rfl | rfl | rfl | rfl
    · simp [EvLoop.step, lift, MRing.step, e1] at hs
    · simp only [EvLoop.step, lift, MRing.step, e1] at hs
      rw [if_neg (by omega)] at hs
      simp only [Option.map_some, Option.some.injEq] at hs
      exact ⟨j + 1, hi, by omega, by rw [← hs]; dsimp only; exact upd_same _ _ _, by rw [← hs]; exact e2, fun _ hx => hx⟩
    · simp [EvLoop.step, e1] at hs
    · simp [EvLoop.step, e1] at hs
    · simp [EvLoop.step, lift, MRing.step, e1] at hs
  | succ n ih =>
    intro i ha nx hi c hc hn
    have hcons := (h.inv i).cons 0 (ha.gating h)
    rw [hc] at hcons; simp only [MRing.CInv] at hcons
    have hge := (h.inv i).seq_ge 0 (ha.gating h)
    obtain ⟨j, a, hij, ho, hs, e1, e2⟩ := ha.next_own h
    have haj := (ha.from h hij).1
    rw [hc] at e1
    rcases ho with rfl | rfl | rfl | rfl | rfl
    · simp [EvLoop.step, lift, MRing.step, e1] at hs
    · simp only [EvLoop.step, lift, MRing.step, e1] at hs
      split at hs
      · rename_i hle
        split at hs
        · simp only [Option.map_some, Option.some.injEq] at hs
          obtain ⟨m, av, m1, m2, m3, m4⟩ := ih ((ha.from h (Nat.le_succ_of_le hij)).1) (nx := nx) (hi := hi) (c := c + 1)
            (by rw [← hs]; dsimp only; exact upd_same _ _ _) (by omega)
          refine ⟨m, av, by omega, m2, by rw [m3, ← hs]; exact e2, fun hp hx => m4 (fun y h0 h1 => ?_) hx⟩
          have hcur := hcons.2.2.2.1
          exact h.owner_mono (by omega : i ≤ j + 1) (by omega) (hp y h0 h1)
        · rename_i hfl
          simp only [Option.map_some, Option.some.injEq] at hs
          refine ⟨j + 1, c - 1, by omega, by rw [← hs]; dsimp only; exact upd_same _ _ _, by rw [← hs]; exact e2, fun hp hx => ?_⟩
          apply Classical.byContradiction
          intro hlt
          have hcur := hcons.2.2.2.1
          have hcm := h.cursor_mono hij
          exact hfl ((h.inv j).flag_set 0 (haj.gating h) c (by omega) (by omega)
            (h.owner_mono hij (by omega) (hp c (by omega) (by omega))))
      · rename_i hle
        simp only [Option.map_some, Option.some.injEq] at hs
        exact ⟨j + 1, hi, by omega, by rw [← hs]; dsimp only; exact upd_same _ _ _, by rw [← hs]; exact e2, fun _ hx => hx⟩
    · simp [EvLoop.step, e1] at hs
    · simp [EvLoop.step, e1] at hs
    · simp [EvLoop.step, lift, MRing.step, e1] at hs

theorem LoopAlive.to_wait (h : Run k σ α) {i : Nat} (ha : LoopAlive σ α i) : ∃ j nx, i ≤ j ∧ (σ j).ring.cp 0 = .wait nx := by
  have hb : ∀ {i : Nat}, LoopAlive σ α i → ∀ {nx av}, ((σ i).ring.cp 0 = .batch nx av ∨ (σ i).ring.cp 0 = .handle nx av) →
      ∃ j nx, i ≤ j ∧ (σ j).ring.cp 0 = .wait nx := by
    intro i ha nx av hc
    obtain ⟨j, j1, ⟨nx', j2⟩, _⟩ := ha.batch_done h (2 * (av + 1 - nx).toNat + 1) (nx := nx) (av := av)
      (by rcases hc with hc | hc
          · exact Or.inl ⟨hc, Nat.le_refl _⟩
          · exact Or.inr ⟨hc, by omega⟩)
    exact ⟨j, nx', j1, j2⟩
  cases hc : (σ i).ring.cp 0 with
  | idle => exact absurd hc ha.running
  | wait nx => exact ⟨i, nx, Nat.le_refl _, hc⟩
  | scan nx hi c =>
    obtain ⟨j, av, j1, j2, _, _⟩ := ha.scan_done h (x := 0) _ hc (Nat.le_refl _)
    obtain ⟨m, nx, m1, m2⟩ := hb (ha.from h j1).1 (Or.inl j2)
    exact ⟨m, nx, by omega, m2⟩
  | batch nx av => exact hb ha (Or.inl hc)
  | handle nx av => exact hb ha (Or.inr hc)

/-- One round: with everything up to `x` published, a loop behind `x` gets at least one event further. -/
theorem LoopAlive.round (h : Run k σ α) {i : Nat} (ha : LoopAlive σ α i) {x : Int} (hx : x ≤ (σ i).ring.cursor)
    (hp : ∀ y, 0 ≤ y → y ≤ x → (σ i).ring.owner y = none) (hlt : (σ i).ring.seq 0 < x) : ∃ j, i ≤ j ∧ (σ i).ring.seq 0 < (σ j).ring.seq 0 := by
  obtain ⟨j, nx, j1, j2⟩ := ha.to_wait h
  by_cases hs : (σ i).ring.seq 0 < (σ j).ring.seq 0
  · exact ⟨j, j1, hs⟩
  have heq : (σ j).ring.seq 0 = (σ i).ring.seq 0 := by have := ha.seq_mono h j1; omega
  have haj := (ha.from h j1).1
  have hnx : nx = (σ j).ring.seq 0 + 1 := by
    have := (h.inv j).cons 0 (haj.gating h)
    rw [j2] at this; exact this
  obtain ⟨m, a, m1, mo, ms, m2, m3⟩ := haj.next_own h
  rw [j2] at m2
  have hxm : x ≤ (σ m).ring.cursor := Int.le_trans hx (h.cursor_mono (by omega))
  rcases mo with rfl | rfl | rfl | rfl | rfl
  · simp only [EvLoop.step, lift, MRing.step, m2] at ms
    rw [if_neg (by omega)] at ms
    simp only [Option.map_some, Option.some.injEq] at ms
    have ham := (haj.from h (Nat.le_succ_of_le m1)).1
    obtain ⟨l, av, l1, l2, l3, l4⟩ := ham.scan_done h (x := x) _ (nx := nx) (hi := (σ m).ring.cursor) (c := nx)
      (by rw [← ms]; dsimp only; exact upd_same _ _ _) (Nat.le_refl _)
    have hav := l4 (fun y h0 h1 => h.owner_mono (by omega : i ≤ m + 1) (by omega) (hp y h0 h1)) hxm
    obtain ⟨q, q1, _, q3⟩ := (ham.from h l1).1.batch_done h _ (Or.inl ⟨l2, Nat.le_refl _⟩)
    exact ⟨q, by omega, by omega⟩
  · simp [EvLoop.step, lift, MRing.step, m2] at ms
  · simp [EvLoop.step, m2] at ms
  · simp [EvLoop.step, m2] at ms
  · simp [EvLoop.step, lift, MRing.step, m2] at ms

theorem LoopAlive.reaches (h : Run k σ α) {x : Int} (n : Nat) : ∀ {i : Nat} (_ : LoopAlive σ α i), x ≤ (σ i).ring.cursor →
    (∀ y, 0 ≤ y → y ≤ x → (σ i).ring.owner y = none) → (x - (σ i).ring.seq 0).toNat ≤ n → ∃ j, i ≤ j ∧ x ≤ (σ j).ring.seq 0 := by
  induction n with
  | zero => intro i _ _ _ hn; exact ⟨i, Nat.le_refl _, by omega⟩
  | succ n ih =>
    intro i ha hx hp hn
    by_cases hlt : (σ i).ring.seq 0 < x
    · obtain ⟨j, j1, j2⟩ := ha.round h hx hp hlt
      obtain ⟨m, m1, m2⟩ := ih (ha.from h j1).1 (Int.le_trans hx (h.cursor_mono j1))
        (fun y h0 h1 => h.owner_mono j1 (by omega) (hp y h0 h1)) (by omega)
      exact ⟨m, by omega, m2⟩
    · exact ⟨i, Nat.le_refl _, by omega⟩

end Verif.EvLoop
