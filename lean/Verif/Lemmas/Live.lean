import Verif.Spec.Live

/-! Liveness of the ring with dependent processors under fair scheduling. -/

namespace Verif.Chain
open Verif Verif.Disr Verif.Fair

variable {V : Type}

theorem look_loc {cfg : Cfg} {s t : St V} {c : Nat} (hs : look cfg s c = some t) : Loc c s t ∧ t.seq = s.seq := by
  simp only [look] at hs
  (repeat' split at hs) <;> first
    | (cases hs; exact ⟨⟨rfl, rfl, fun _ _ => rfl, fun q hq => by first | rfl | exact upd_other _ _ hq⟩, rfl⟩)
    | cases hs

/-- A step that is not one of `p` leaves its program counter and its sequence alone. -/
theorem other_step {cfg : Cfg} {s t : St V} (h : Inv cfg s) {a : Act V} (hs : step cfg s a = some t) (hl : t.late = false) {p : Nat}
    (ho : ¬ Turn p a) (hlv : a ≠ .leave p) (hp : s.cp p ≠ .idle) : t.cp p = s.cp p ∧ t.seq p = s.seq p := by
  cases a with
  | callNext n =>
    simp only [step] at hs
    (repeat' split at hs) <;> cases hs <;> exact ⟨rfl, rfl⟩
  | callTry n =>
    simp only [step] at hs
    (repeat' split at hs) <;> cases hs <;> exact ⟨rfl, rfl⟩
  | pstep =>
    simp only [step, pstep] at hs
    (repeat' split at hs) <;> cases hs <;> exact ⟨rfl, rfl⟩
  | write x v =>
    simp only [step] at hs
    (repeat' split at hs) <;> cases hs <;> exact ⟨rfl, rfl⟩
  | publish x =>
    simp only [step] at hs
    (repeat' split at hs) <;> cases hs <;> exact ⟨rfl, rfl⟩
  | addGating c =>
    simp only [step] at hs
    cases hs
    refine ⟨rfl, ?_⟩
    show upd s.seq c s.cursor p = s.seq p
    by_cases e : p = c
    · subst e
      rw [upd_same]
      simp only [Bool.or_eq_false_iff, decide_eq_false_iff_not, not_not] at hl
      have := h.cur_ge; have := h.cur_le; have := h.seq_ge p; have := h.seq_le p
      omega
    · exact upd_other _ _ e
  | removeGating c => simp only [step] at hs; cases hs; exact ⟨rfl, rfl⟩
  | run c =>
    simp only [step] at hs
    split at hs
    · rename_i hc
      cases hs
      have e : p ≠ c := fun e => hp (e ▸ hc)
      exact ⟨upd_other _ _ e, rfl⟩
    · cases hs
  | look c =>
    have e : p ≠ c := fun e => ho (by subst e; exact Or.inl rfl)
    obtain ⟨h1, h2⟩ := look_loc hs
    exact ⟨h1.cp p e, by rw [h2]⟩
  | advance c =>
    have e : p ≠ c := fun e => ho (by subst e; exact Or.inr (Or.inl rfl))
    simp only [step] at hs
    (repeat' split at hs) <;> cases hs <;> first
      | exact ⟨upd_other _ _ e, rfl⟩
      | exact ⟨upd_other _ _ e, upd_other _ _ e⟩
  | finish c =>
    have e : p ≠ c := fun e => ho (by subst e; exact Or.inr (Or.inr (Or.inl rfl)))
    simp only [step] at hs
    split at hs <;> cases hs
    exact ⟨upd_other _ _ e, rfl⟩
  | throw c =>
    have e : p ≠ c := fun e => ho (by subst e; exact Or.inr (Or.inr (Or.inr rfl)))
    simp only [step] at hs
    split at hs <;> cases hs
    exact ⟨upd_other _ _ e, upd_other _ _ e⟩
  | leave c =>
    have e : p ≠ c := fun e => hlv (by subst e; rfl)
    simp only [step] at hs
    split at hs <;> cases hs <;> exact ⟨upd_other _ _ e, rfl⟩

theorem seq_mono_step {cfg : Cfg} {s t : St V} (h : Inv cfg s) {a : Act V} (hs : step cfg s a = some t) (hl : t.late = false) (p : Nat) :
    s.seq p ≤ t.seq p := by
  cases a with
  | callNext n =>
    simp only [step] at hs
    (repeat' split at hs) <;> cases hs <;> exact Int.le_refl _
  | callTry n =>
    simp only [step] at hs
    (repeat' split at hs) <;> cases hs <;> exact Int.le_refl _
  | pstep =>
    simp only [step, pstep] at hs
    (repeat' split at hs) <;> cases hs <;> exact Int.le_refl _
  | write x v =>
    simp only [step] at hs
    (repeat' split at hs) <;> cases hs <;> exact Int.le_refl _
  | publish x =>
    simp only [step] at hs
    (repeat' split at hs) <;> cases hs <;> exact Int.le_refl _
  | addGating c =>
    simp only [step] at hs
    cases hs
    show s.seq p ≤ upd s.seq c s.cursor p
    by_cases e : p = c
    · subst e; rw [upd_same]; exact h.seq_le p
    · rw [upd_other _ _ e]
  | removeGating c => simp only [step] at hs; cases hs; exact Int.le_refl _
  | run c =>
    simp only [step] at hs
    split at hs <;> cases hs; exact Int.le_refl _
  | look c => rw [(look_loc hs).2]
  | advance c =>
    simp only [step] at hs
    have hi := h.cons c
    (repeat' split at hs) <;> cases hs <;> first
      | exact Int.le_refl _
      | (show s.seq p ≤ upd s.seq c _ p
         by_cases e : p = c
         · subst e
           rename_i hc _
           rw [hc] at hi; simp only [CInv] at hi
           rw [upd_same]; omega
         · rw [upd_other _ _ e])
      | (show s.seq p ≤ upd s.seq c _ p
         by_cases e : p = c
         · subst e
           rename_i hc _ _
           rw [hc] at hi; simp only [CInv] at hi
           rw [upd_same]; omega
         · rw [upd_other _ _ e])
  | finish c =>
    simp only [step] at hs
    split at hs <;> cases hs; exact Int.le_refl _
  | throw c =>
    simp only [step] at hs
    have hi := h.cons c
    split at hs <;> cases hs
    rename_i hc
    rw [hc] at hi; simp only [CInv] at hi
    show s.seq p ≤ upd s.seq c _ p
    by_cases e : p = c
    · subst e; rw [upd_same]; omega
    · rw [upd_other _ _ e]
  | leave c =>
    simp only [step] at hs
    split at hs <;> cases hs <;> exact Int.le_refl _

theorem cursor_mono_step {cfg : Cfg} {s t : St V} {a : Act V} (hs : step cfg s a = some t) : s.cursor ≤ t.cursor := by
  cases a with
  | publish x =>
    simp only [step] at hs
    split at hs
    · rename_i hx; cases hs; exact Int.le_of_lt hx.1
    · cases hs
  | look c => rw [(look_loc hs).1.cursor]
  | pstep =>
    simp only [step, pstep] at hs
    (repeat' split at hs) <;> cases hs <;> exact Int.le_refl _
  | _ =>
    simp only [step] at hs
    first
      | (cases hs; exact Int.le_refl _)
      | ((repeat' split at hs) <;> cases hs <;> exact Int.le_refl _)

/-! Facts about one execution. -/

variable {cfg : Cfg} {v : V} {σ : Nat → St V} {α : Nat → Option (Act V)}

theorem Run.next (h : Run cfg v σ α) (i : Nat) : σ (i + 1) = σ i ∨ ∃ a, α i = some a ∧ step cfg (σ i) a = some (σ (i + 1)) := by
  have := h.exec i
  cases e : α i with
  | none => rw [e] at this; exact Or.inl this
  | some a => rw [e] at this; exact Or.inr ⟨a, rfl, this⟩

theorem Run.reach (h : Run cfg v σ α) (i : Nat) : Reach cfg v (σ i) := by
  induction i with
  | zero => exact h.start
  | succ i ih =>
    rcases h.next i with e | ⟨a, _, hs⟩
    · rw [e]; exact ih
    · exact .step ih hs

theorem Run.inv (h : Run cfg v σ α) (i : Nat) : Inv cfg (σ i) := (h.reach i).inv h.hk (h.late i)

theorem Run.seq_mono (h : Run cfg v σ α) (p : Nat) {i j : Nat} (hij : i ≤ j) : (σ i).seq p ≤ (σ j).seq p := by
  induction hij with
  | refl => exact Int.le_refl _
  | step _ ih =>
    rename_i j _
    refine Int.le_trans ih ?_
    rcases h.next j with e | ⟨a, _, hs⟩
    · rw [e]
    · exact seq_mono_step (h.inv j) hs (h.late _) p

theorem Run.cursor_mono (h : Run cfg v σ α) {i j : Nat} (hij : i ≤ j) : (σ i).cursor ≤ (σ j).cursor := by
  induction hij with
  | refl => exact Int.le_refl _
  | step _ ih =>
    rename_i j _
    refine Int.le_trans ih ?_
    rcases h.next j with e | ⟨a, _, hs⟩
    · rw [e]
    · exact cursor_mono_step hs

theorem own_not_idle {s t : St V} {a : Act V} {p : Nat} (ho : Turn p a) (hs : step cfg s a = some t) : t.cp p ≠ .idle := by
  rcases ho with rfl | rfl | rfl | rfl
  · simp only [step, look] at hs
    (repeat' split at hs) <;> cases hs <;> first
      | (show upd _ _ _ p ≠ _; rw [upd_same]; exact fun e => by cases e)
      | (intro e; simp_all)
  · simp only [step] at hs
    (repeat' split at hs) <;> cases hs <;> (show upd _ _ _ p ≠ _; rw [upd_same]; exact fun e => by cases e)
  · simp only [step] at hs
    split at hs <;> cases hs
    show upd _ _ _ p ≠ _; rw [upd_same]; exact fun e => by cases e
  · simp only [step] at hs
    split at hs <;> cases hs
    show upd _ _ _ p ≠ _; rw [upd_same]; exact fun e => by cases e

theorem Alive.running_at (h : Run cfg v σ α) {p i : Nat} (ha : Alive σ α p i) {j : Nat} (hij : i ≤ j) : (σ j).cp p ≠ .idle := by
  induction hij with
  | refl => exact ha.running
  | step hm ih =>
    rename_i j
    rcases h.next j with e | ⟨a, hj, hs⟩
    · rw [e]; exact ih
    · by_cases ho : Turn p a
      · exact own_not_idle ho hs
      · rw [(other_step (h.inv j) hs (h.late _) ho (fun e => ha.stays j hm (by rw [hj, e])) ih).1]; exact ih

theorem Alive.from (h : Run cfg v σ α) {p i : Nat} (ha : Alive σ α p i) {j : Nat} (hij : i ≤ j) : Alive σ α p j :=
  ⟨ha.running_at h hij, fun k hk => ha.stays k (Nat.le_trans hij hk), ha.fair⟩

/-- The next step of `p` finds its program counter and sequence as they are now. -/
theorem Alive.next_own (h : Run cfg v σ α) {p i : Nat} (ha : Alive σ α p i) :
    ∃ j a, i ≤ j ∧ Turn p a ∧ step cfg (σ j) a = some (σ (j + 1)) ∧ (σ j).cp p = (σ i).cp p ∧ (σ j).seq p = (σ i).seq p := by
  obtain ⟨k, hk, a, hka, ho⟩ := ha.fair i (fun j hj => ha.running_at h hj)
  obtain ⟨d, rfl⟩ : ∃ d, k = i + d := ⟨k - i, by omega⟩
  clear hk
  induction d generalizing i with
  | zero =>
    refine ⟨i, a, Nat.le_refl _, ho, ?_, rfl, rfl⟩
    rcases h.next i with e | ⟨b, hb, hs⟩
    · have := h.exec i; rw [show α i = some a from hka] at this; exact this
    · rw [show α i = some a from hka] at hb; cases hb; exact hs
  | succ d ih =>
    rcases h.next i with e | ⟨b, hb, hs⟩
    · obtain ⟨j, c, h1, h2, h3, h4, h5⟩ := ih (ha.from h (Nat.le_succ i)) (by rw [← hka]; congr 1; omega)
      exact ⟨j, c, by omega, h2, h3, by rw [h4, e], by rw [h5, e]⟩
    · by_cases hob : Turn p b
      · exact ⟨i, b, Nat.le_refl _, hob, hs, rfl, rfl⟩
      · obtain ⟨e1, e2⟩ := other_step (h.inv i) hs (h.late _) hob (fun e => ha.stays i (Nat.le_refl _) (by rw [hb, e])) ha.running
        obtain ⟨j, c, h1, h2, h3, h4, h5⟩ := ih (ha.from h (Nat.le_succ i)) (by rw [← hka]; congr 1; omega)
        exact ⟨j, c, by omega, h2, h3, by rw [h4, e1], by rw [h5, e2]⟩

/-- A batch comes to its end. -/
theorem Alive.batch_done (h : Run cfg v σ α) {p : Nat} (n : Nat) : ∀ {i : Nat} (_ : Alive σ α p i) {nx av : Int},
    (((σ i).cp p = .batch nx av ∧ 2 * (av + 1 - nx).toNat + 1 ≤ n) ∨ ((σ i).cp p = .handle nx av ∧ 2 * (av + 1 - nx).toNat ≤ n)) →
    ∃ j, i ≤ j ∧ (∃ nx', (σ j).cp p = .wait nx') ∧ min nx av ≤ (σ j).seq p := by
  induction n with
  | zero =>
    intro i ha nx av hc
    rcases hc with ⟨_, h2⟩ | ⟨h1, h2⟩
    · omega
    · have := (h.inv i).cons p
      rw [h1] at this; simp only [CInv] at this
      omega
  | succ n ih =>
    intro i ha nx av hc
    obtain ⟨j, a, hij, ho, hs, e1, e2⟩ := ha.next_own h
    have ha' := ha.from h (Nat.le_succ_of_le hij)
    rcases hc with ⟨h1, h2⟩ | ⟨h1, h2⟩
    · rw [h1] at e1
      rcases ho with rfl | rfl | rfl | rfl
      · simp [step, look, e1] at hs
      · simp only [step, e1] at hs
        split at hs
        · simp only [Option.some.injEq] at hs
          refine ⟨j + 1, by omega, ⟨av + 1, by rw [← hs]; exact upd_same _ _ _⟩, ?_⟩
          have : (σ (j + 1)).seq p = av := by rw [← hs]; exact upd_same _ _ _
          omega
        · split at hs
          · simp only [Option.some.injEq] at hs
            have e : (σ (j + 1)).cp p = .handle nx av := by rw [← hs]; exact upd_same _ _ _
            obtain ⟨k, k1, k2, k3⟩ := ih ha' (nx := nx) (av := av) (Or.inr ⟨e, by omega⟩)
            exact ⟨k, by omega, k2, k3⟩
          · simp only [Option.some.injEq] at hs
            refine ⟨j + 1, by omega, ⟨nx, by rw [← hs]; exact upd_same _ _ _⟩, ?_⟩
            have : (σ (j + 1)).seq p = av := by rw [← hs]; exact upd_same _ _ _
            omega
      · simp [step, e1] at hs
      · simp [step, e1] at hs
    · have hi := (h.inv i).cons p
      rw [h1] at hi; simp only [CInv] at hi
      rw [h1] at e1
      rcases ho with rfl | rfl | rfl | rfl
      · simp [step, look, e1] at hs
      · simp [step, e1] at hs
      · simp only [step, e1, Option.some.injEq] at hs
        have e : (σ (j + 1)).cp p = .batch (nx + 1) av := by rw [← hs]; exact upd_same _ _ _
        obtain ⟨k, k1, k2, k3⟩ := ih ha' (nx := nx + 1) (av := av) (Or.inl ⟨e, by omega⟩)
        exact ⟨k, by omega, k2, by omega⟩
      · simp only [step, e1, Option.some.injEq] at hs
        refine ⟨j + 1, by omega, ⟨nx + 1, by rw [← hs]; exact upd_same _ _ _⟩, ?_⟩
        have : (σ (j + 1)).seq p = nx := by rw [← hs]; exact upd_same _ _ _
        omega

/-- A look at the tracked sequences comes to its end; if all of them are at `x` and further from now on, it finds at least `x`. -/
theorem Alive.scan_done (h : Run cfg v σ α) {p : Nat} {x : Int} (rest : List Nat) : ∀ {i : Nat} (_ : Alive σ α p i) {nx m : Int},
    (σ i).cp p = .scan nx rest m → (∀ d ∈ rest, x ≤ (σ i).seq d) → x ≤ m → nx ≤ x →
    ∃ j m', i ≤ j ∧ (σ j).cp p = .batch nx m' ∧ x ≤ m' ∧ (σ j).seq p = (σ i).seq p := by
  induction rest with
  | nil =>
    intro i ha nx m hc _ hm hx
    obtain ⟨j, a, hij, ho, hs, e1, e2⟩ := ha.next_own h
    rw [hc] at e1
    rcases ho with rfl | rfl | rfl | rfl
    · simp only [step, look, e1] at hs
      rw [if_neg (by omega)] at hs
      simp only [Option.some.injEq] at hs
      exact ⟨j + 1, m, by omega, by rw [← hs]; exact upd_same _ _ _, hm, by rw [← hs]; exact e2⟩
    · simp [step, e1] at hs
    · simp [step, e1] at hs
    · simp [step, e1] at hs
  | cons d rest ih =>
    intro i ha nx m hc hr hm hx
    obtain ⟨j, a, hij, ho, hs, e1, e2⟩ := ha.next_own h
    rw [hc] at e1
    rcases ho with rfl | rfl | rfl | rfl
    · simp only [step, look, e1, Option.some.injEq] at hs
      have hd : x ≤ (σ j).seq d := Int.le_trans (hr d (by simp)) (h.seq_mono d hij)
      obtain ⟨k, m', k1, k2, k3, k4⟩ := ih (ha.from h (Nat.le_succ_of_le hij)) (nx := nx)
        (m := if (σ j).seq d < m then (σ j).seq d else m) (by rw [← hs]; exact upd_same _ _ _)
        (fun c hc => Int.le_trans (hr c (by simp [hc])) (h.seq_mono c (by omega))) (by split <;> omega) hx
      refine ⟨k, m', by omega, k2, k3, ?_⟩
      rw [k4, ← hs]; exact e2
    · simp [step, e1] at hs
    · simp [step, e1] at hs
    · simp [step, e1] at hs

/-- A look at the tracked sequences ends, whatever it finds. -/
theorem Alive.scan_ends (h : Run cfg v σ α) {p : Nat} (rest : List Nat) : ∀ {i : Nat} (_ : Alive σ α p i) {nx m : Int},
    (σ i).cp p = .scan nx rest m → ∃ j, i ≤ j ∧ ((∃ nx', (σ j).cp p = .wait nx') ∨ ∃ nx' av, (σ j).cp p = .batch nx' av) := by
  induction rest with
  | nil =>
    intro i ha nx m hc
    obtain ⟨j, a, hij, ho, hs, e1, _⟩ := ha.next_own h
    rw [hc] at e1
    rcases ho with rfl | rfl | rfl | rfl
    · simp only [step, look, e1] at hs
      refine ⟨j + 1, by omega, ?_⟩
      split at hs <;> simp only [Option.some.injEq] at hs
      · exact Or.inl ⟨nx, by rw [← hs]; exact upd_same _ _ _⟩
      · exact Or.inr ⟨nx, m, by rw [← hs]; exact upd_same _ _ _⟩
    · simp [step, e1] at hs
    · simp [step, e1] at hs
    · simp [step, e1] at hs
  | cons d rest ih =>
    intro i ha nx m hc
    obtain ⟨j, a, hij, ho, hs, e1, _⟩ := ha.next_own h
    rw [hc] at e1
    rcases ho with rfl | rfl | rfl | rfl
    · simp only [step, look, e1, Option.some.injEq] at hs
      obtain ⟨k, k1, k2⟩ := ih (ha.from h (Nat.le_succ_of_le hij)) (nx := nx)
        (m := if (σ j).seq d < m then (σ j).seq d else m) (by rw [← hs]; exact upd_same _ _ _)
      exact ⟨k, by omega, k2⟩
    · simp [step, e1] at hs
    · simp [step, e1] at hs
    · simp [step, e1] at hs

/-- A running processor gets back to the point where it waits. -/
theorem Alive.to_wait (h : Run cfg v σ α) {p i : Nat} (ha : Alive σ α p i) : ∃ j nx, i ≤ j ∧ (σ j).cp p = .wait nx := by
  have hb : ∀ {i : Nat}, Alive σ α p i → ∀ {nx av}, ((σ i).cp p = .batch nx av ∨ (σ i).cp p = .handle nx av) →
      ∃ j nx, i ≤ j ∧ (σ j).cp p = .wait nx := by
    intro i ha nx av hc
    obtain ⟨j, j1, ⟨nx', j2⟩, _⟩ := ha.batch_done h (2 * (av + 1 - nx).toNat + 1) (nx := nx) (av := av)
      (by rcases hc with hc | hc
          · exact Or.inl ⟨hc, Nat.le_refl _⟩
          · exact Or.inr ⟨hc, by omega⟩)
    exact ⟨j, nx', j1, j2⟩
  cases hc : (σ i).cp p with
  | idle => exact absurd hc ha.running
  | wait nx => exact ⟨i, nx, Nat.le_refl _, hc⟩
  | scan nx rest m =>
    obtain ⟨j, j1, ⟨nx', j2⟩ | ⟨nx', av, j2⟩⟩ := ha.scan_ends h rest hc
    · exact ⟨j, nx', j1, j2⟩
    · obtain ⟨k, nx, k1, k2⟩ := hb (ha.from h j1) (Or.inl j2)
      exact ⟨k, nx, by omega, k2⟩
  | batch nx av => exact hb ha (Or.inl hc)
  | handle nx av => exact hb ha (Or.inr hc)

/-- What processor `p` waits for is at `x` (and stays there). -/
def Avail (cfg : Cfg) (s : St V) (p : Nat) (x : Int) : Prop := x ≤ s.cursor ∧ ∀ d ∈ cfg.deps p, x ≤ s.seq d

theorem Run.avail_mono (h : Run cfg v σ α) {p : Nat} {x : Int} {i j : Nat} (hij : i ≤ j) (ha : Avail cfg (σ i) p x) : Avail cfg (σ j) p x :=
  ⟨Int.le_trans ha.1 (h.cursor_mono hij), fun d hd => Int.le_trans (ha.2 d hd) (h.seq_mono d hij)⟩

/-- One round: a processor behind `x` gets at least one event further. -/
theorem Alive.round (h : Run cfg v σ α) {p i : Nat} (ha : Alive σ α p i) {x : Int} (hx : Avail cfg (σ i) p x) (hll : x ≤ llmax)
    (hlt : (σ i).seq p < x) : ∃ j, i ≤ j ∧ (σ i).seq p < (σ j).seq p := by
  obtain ⟨j, nx, j1, j2⟩ := ha.to_wait h
  by_cases hs : (σ i).seq p < (σ j).seq p
  · exact ⟨j, j1, hs⟩
  have heq : (σ j).seq p = (σ i).seq p := by have := h.seq_mono p j1; omega
  have haj := ha.from h j1
  have hxj := h.avail_mono j1 hx
  have hnx : nx = (σ j).seq p + 1 := by
    have := (h.inv j).cons p
    rw [j2] at this; exact this
  obtain ⟨k, a, k1, ko, ks, k2, k3⟩ := haj.next_own h
  rw [j2] at k2
  have hxk := h.avail_mono k1 hxj
  -- in a batch that reaches `x`
  have key : ∃ l av, k + 1 ≤ l ∧ (σ l).cp p = .batch nx av ∧ x ≤ av := by
    rcases ko with rfl | rfl | rfl | rfl
    · simp only [step, look, k2] at ks
      cases hd : cfg.deps p with
      | nil =>
        rw [hd] at ks
        simp only at ks
        rw [if_neg (by have := hxk.1; omega)] at ks
        simp only [Option.some.injEq] at ks
        exact ⟨k + 1, (σ k).cursor, Nat.le_refl _, by rw [← ks]; exact upd_same _ _ _, hxk.1⟩
      | cons d ds =>
        rw [hd] at ks
        simp only [Option.some.injEq] at ks
        obtain ⟨l, m', l1, l2, l3, _⟩ := Alive.scan_done h (x := x) (d :: ds) (haj.from h (Nat.le_succ_of_le k1)) (nx := nx) (m := llmax)
          (by rw [← ks]; exact upd_same _ _ _)
          (fun c hc => (h.avail_mono (Nat.le_succ k) hxk).2 c (by rw [hd]; exact hc)) hll (by omega)
        exact ⟨l, m', l1, l2, l3⟩
    · simp [step, k2] at ks
    · simp [step, k2] at ks
    · simp [step, k2] at ks
  obtain ⟨l, av, l1, l2, l3⟩ := key
  obtain ⟨m, m1, _, m3⟩ := (haj.from h (by omega : j ≤ l)).batch_done h _ (Or.inl ⟨l2, Nat.le_refl _⟩)
  exact ⟨m, by omega, by omega⟩

theorem Alive.reaches (h : Run cfg v σ α) {p : Nat} {x : Int} (hll : x ≤ llmax) (n : Nat) : ∀ {i : Nat} (_ : Alive σ α p i)
    (_ : Avail cfg (σ i) p x), (x - (σ i).seq p).toNat ≤ n → ∃ j, i ≤ j ∧ x ≤ (σ j).seq p := by
  induction n with
  | zero => intro i _ _ hn; exact ⟨i, Nat.le_refl _, by omega⟩
  | succ n ih =>
    intro i ha hx hn
    by_cases hlt : (σ i).seq p < x
    · obtain ⟨j, j1, j2⟩ := ha.round h hx hll hlt
      obtain ⟨k, k1, k2⟩ := ih (ha.from h j1) (h.avail_mono j1 hx) (by omega)
      exact ⟨k, by omega, k2⟩
    · exact ⟨i, Nat.le_refl _, by omega⟩

/-! The producer. -/

theorem prod_other {s t : St V} {a : Act V} (hs : step cfg s a = some t) (hl : t.late = false) (ha : a ≠ .pstep) (hp : s.pp ≠ .idle) :
    t.pp = s.pp ∧ t.nextVal = s.nextVal ∧ ∀ c ∈ t.gating, c ∈ s.gating := by
  cases a with
  | callNext n => simp [step, hp] at hs
  | callTry n => simp [step, hp] at hs
  | pstep => exact absurd rfl ha
  | addGating c =>
    simp only [step] at hs
    cases hs
    simp [hp] at hl
  | removeGating c =>
    simp only [step] at hs
    cases hs
    exact ⟨rfl, rfl, fun d hd => (List.mem_filter.mp hd).1⟩
  | look c =>
    simp only [step, look] at hs
    (repeat' split at hs) <;> cases hs <;> exact ⟨rfl, rfl, fun _ h => h⟩
  | _ =>
    simp only [step] at hs
    (repeat' split at hs) <;> cases hs <;> exact ⟨rfl, rfl, fun _ h => h⟩

/-- The producer gets its turn again and again while it is in `next` or `try_next`. -/
theorem prod_next (h : Run cfg v σ α) (hf : FairTo (fun s : St V => s.pp ≠ .idle) (fun a => a = .pstep) σ α) {i : Nat}
    (hp : (σ i).pp ≠ .idle) :
    ∃ j, i ≤ j ∧ pstep (2 ^ cfg.k) (σ j) = some (σ (j + 1)) ∧ (σ j).pp = (σ i).pp ∧ (σ j).nextVal = (σ i).nextVal ∧
      ∀ c ∈ (σ j).gating, c ∈ (σ i).gating := by
  have hex : ∃ j, i ≤ j ∧ α j = some .pstep := by
    apply Classical.byContradiction
    intro hno
    have hno : ∀ j, i ≤ j → α j ≠ some .pstep := fun j hj e => hno ⟨j, hj, e⟩
    have hb : ∀ j, i ≤ j → (σ j).pp ≠ .idle := by
      intro j hj
      induction hj with
      | refl => exact hp
      | step hm ih =>
        rename_i j
        rcases h.next j with e | ⟨a, ha, hs⟩
        · rw [e]; exact ih
        · rw [(prod_other hs (h.late _) (fun e => hno j hm (by rw [ha, e])) ih).1]; exact ih
    obtain ⟨j, hj, a, h1, h2⟩ := hf i hb
    exact hno j hj (by rw [h1, h2])
  obtain ⟨k, hk, hka⟩ := hex
  obtain ⟨d, rfl⟩ : ∃ d, k = i + d := ⟨k - i, by omega⟩
  clear hk
  have here : ∀ i, α i = some .pstep → pstep (2 ^ cfg.k) (σ i) = some (σ (i + 1)) := by
    intro i hi
    have := h.exec i
    rw [hi] at this
    exact this
  induction d generalizing i with
  | zero => exact ⟨i, Nat.le_refl _, here i hka, rfl, rfl, fun _ h => h⟩
  | succ d ih =>
    by_cases hi : α i = some .pstep
    · exact ⟨i, Nat.le_refl _, here i hi, rfl, rfl, fun _ h => h⟩
    · have e : (σ (i + 1)).pp = (σ i).pp ∧ (σ (i + 1)).nextVal = (σ i).nextVal ∧ ∀ c ∈ (σ (i + 1)).gating, c ∈ (σ i).gating := by
        rcases h.next i with e | ⟨a, ha, hs⟩
        · rw [e]; exact ⟨rfl, rfl, fun _ h => h⟩
        · exact prod_other hs (h.late _) (fun e => hi (by rw [ha, e])) hp
      obtain ⟨j, j1, j2, j3, j4, j5⟩ := ih (i := i + 1) (by rw [e.1]; exact hp) (by rw [← hka]; congr 1; omega)
      exact ⟨j, by omega, j2, by rw [j3, e.1], by rw [j4, e.2.1], fun c hc => e.2.2 c (j5 c hc)⟩

/-- A scan of `next` ends; if everything it still reads is far enough and the minimum so far too, it ends with the claim. -/
theorem prod_scan (h : Run cfg v σ α) (hf : FairTo (fun s : St V => s.pp ≠ .idle) (fun a => a = .pstep) σ α) {n N : Int} (rest : List Nat) :
    ∀ {i : Nat} {m : Int}, (σ i).pp = .nScan n rest m → (σ i).nextVal = N →
      ∃ j, i ≤ j ∧ (((σ j).pp = .idle ∧ (σ j).nextVal = N + n) ∨
        ((σ j).pp = .nScan n (σ j).gating N ∧ (σ j).nextVal = N ∧ (∀ c ∈ (σ j).gating, c ∈ (σ i).gating) ∧
          ¬ (N + n - 2 ^ cfg.k ≤ m ∧ ∀ c ∈ rest, N + n - 2 ^ cfg.k ≤ (σ i).seq c))) := by
  induction rest with
  | nil =>
    intro i m hp hn
    obtain ⟨j, j1, j2, j3, j4, j5⟩ := prod_next h hf (i := i) (by rw [hp]; exact fun e => by cases e)
    rw [hp] at j3
    rw [hn] at j4
    simp only [pstep, j3] at j2
    refine ⟨j + 1, by omega, ?_⟩
    split at j2 <;> simp only [Option.some.injEq] at j2 <;> rw [← j2]
    · right
      rename_i hg
      rw [j4] at hg
      exact ⟨by simp [j4], j4, j5, fun hc => by omega⟩
    · left; exact ⟨rfl, by simp [claim, j4]⟩
  | cons c rest ih =>
    intro i m hp hn
    obtain ⟨j, j1, j2, j3, j4, j5⟩ := prod_next h hf (i := i) (by rw [hp]; exact fun e => by cases e)
    rw [hp] at j3
    rw [hn] at j4
    simp only [pstep, j3, Option.some.injEq] at j2
    obtain ⟨k, k1, k2⟩ := ih (i := j + 1) (m := if (σ j).seq c < m then (σ j).seq c else m) (by rw [← j2]) (by rw [← j2]; exact j4)
    refine ⟨k, by omega, k2.imp id fun ⟨a, b, d, e⟩ => ⟨a, b, fun c hc => j5 c (by have := d c hc; rw [← j2] at this; exact this), fun hc => e ⟨?_, ?_⟩⟩⟩
    · have := hc.2 c (by simp)
      have := h.seq_mono c j1
      have := hc.1
      split <;> omega
    · intro d hd
      exact Int.le_trans (hc.2 d (by simp [hd])) (h.seq_mono d (by omega))

end Verif.Chain
