import Verif.Props.Scheduler
import Verif.Lemmas.Fair

/-! C46, liveness of the schedulers: `stopScheduledTask` returns. -/

namespace Verif.Sched
open Verif Verif.Fair

variable {κ : Type} [DecidableEq κ] {v : Bool} {σ : Nat → St κ} {α : Nat → Option (Act κ)}

/-- The thread of task `id` exists and has not ended, and the program has not been ended. -/
def ThBusy (id : Nat) (s : St κ) : Prop := s.terminated = false ∧ ∃ t, s.tasks id = some t ∧ t.pc ≠ .done

/-- `stopScheduledTask` waits for a thread that has ended. -/
def CtlBusy (s : St κ) : Prop := s.terminated = false ∧ ∃ n id t, s.ctl = .joining n id ∧ s.tasks id = some t ∧ t.pc = .done

/-- An infinite execution from a new scheduler, in which every thread is scheduled (and the functions of the tasks return) and the controlling
thread is scheduled. -/
structure Run (v : Bool) (σ : Nat → St κ) (α : Nat → Option (Act κ)) : Prop where
  init : σ 0 = St.init
  exec : Exec (step v) σ α
  thread : ∀ id, FairTo (ThBusy id) (fun a => Act.ofThread id a = true) σ α
  control : FairTo CtlBusy (fun a => a = .joined) σ α

theorem Run.next (h : Run v σ α) (i : Nat) : (α i = none ∧ σ (i + 1) = σ i) ∨ ∃ a, α i = some a ∧ step v (σ i) a = some (σ (i + 1)) := by
  have := h.exec i
  cases e : α i with
  | none => rw [e] at this; exact Or.inl ⟨rfl, this⟩
  | some a => rw [e] at this; exact Or.inr ⟨a, rfl, this⟩

theorem Run.reach (h : Run v σ α) (i : Nat) : Reach v (σ i) := by
  induction i with
  | zero => rw [h.init]; exact Reach.init
  | succ i ih =>
    rcases h.next i with ⟨_, e⟩ | ⟨a, _, e⟩
    · rw [e]; exact ih
    · exact ih.step a e

/-- Steps the thread of task `id` still has to make, at most, once the task has been told to stop. -/
def rank (id : Nat) (s : St κ) : Nat := match s.tasks id with
  | some t => t.pc.rank
  | none => 0

/-- A step of something else than the thread of `id` and the end of the join. -/
theorem join_other {s s' : St κ} {n : κ} {id : Nat} (hc : s.ctl = .joining n id) (htk : ∃ t, s.tasks id = some t) (a : Act κ)
    (ha : Act.ofThread id a = false) (hj : a ≠ .joined) (hs : step v s a = some s') : s'.ctl = .joining n id ∧ s'.tasks id = s.tasks id := by
  obtain ⟨t0, ht0⟩ := htk
  unfold step at hs
  split at hs
  · cases hs
  cases a with
  | joined => exact absurd rfl hj
  | test i =>
    have hne : id ≠ i := by simp [Act.ofThread] at ha; exact fun e => ha e.symm
    simp only at hs
    (repeat' split at hs) <;> cases hs <;> exact ⟨hc, upd_other _ _ hne⟩
  | wake i =>
    have hne : id ≠ i := by simp [Act.ofThread] at ha; exact fun e => ha e.symm
    simp only at hs
    (repeat' split at hs) <;> cases hs <;> exact ⟨hc, upd_other _ _ hne⟩
  | finish i =>
    have hne : id ≠ i := by simp [Act.ofThread] at ha; exact fun e => ha e.symm
    simp only at hs
    (repeat' split at hs) <;> cases hs <;> exact ⟨hc, upd_other _ _ hne⟩
  | _ => simp only at hs <;> (repeat' split at hs) <;> (try cases hs) <;> simp_all

/-- **C46**, both schedulers, `stopScheduledTask` returns: if the threads are scheduled and the functions of the tasks return, a
`stopScheduledTask` that waits for the thread of its task returns in the end, the name can be used again then and the thread has ended —
unless the program is ended meanwhile by another task (`C46_terminated_only_by`). -/
theorem C46_scheduler_stop_returns_fair (h : Run v σ α) {i : Nat} {n : κ} {id : Nat} (hc : (σ i).ctl = .joining n id) :
    ∃ j, i ≤ j ∧ ((σ j).terminated = true ∨ ((σ j).ctl = .idle ∧ (σ j).map n = none ∧ Over (σ j) id)) := by
  apply Classical.byContradiction
  intro hno
  have htm : ∀ j, i ≤ j → (σ j).terminated = false := by
    intro j hj
    cases e : (σ j).terminated with
    | false => rfl
    | true => exact absurd ⟨j, hj, Or.inl e⟩ hno
  have stay : ∀ j, i ≤ j → (σ j).ctl = .joining n id := by
    intro j hj
    induction hj with
    | refl => exact hc
    | @step m hm ih =>
      rcases h.next m with ⟨_, e⟩ | ⟨a, _, e⟩
      · rw [e]; exact ih
      obtain ⟨t, h1, _, _, h4⟩ := C46_scheduler_stop_returns (h.reach m) (htm m hm) ih
      by_cases hj : a = .joined
      · subst hj
        refine absurd ⟨m + 1, Nat.le_succ_of_le hm, Or.inr ?_⟩ hno
        refine ⟨?_, ?_, (joined_over ih e).1⟩ <;>
        · unfold step at e
          simp only [htm m hm, Bool.false_eq_true, if_false, ih, h1] at e
          split at e
          · have := (Option.some.inj e).symm
            simp [this, upd_same]
          · cases e
      by_cases ho : Act.ofThread id a = true
      · exact (h4 a _ ho e).choose_spec.2.2.1
      · exact (join_other ih ⟨t, h1⟩ a (by simpa using ho) hj e).1
  have move : ∀ m, i ≤ m → rank id (σ (m + 1)) ≤ rank id (σ m) ∧
      (∀ a, α m = some a → Act.ofThread id a = true → rank id (σ (m + 1)) < rank id (σ m)) ∧ α m ≠ some .joined := by
    intro m hm
    have ih := stay m hm
    obtain ⟨t, h1, _, _, h4⟩ := C46_scheduler_stop_returns (h.reach m) (htm m hm) ih
    rcases h.next m with ⟨e0, e⟩ | ⟨a, e0, e⟩
    · rw [e, e0]; exact ⟨Nat.le_refl _, nofun, nofun⟩
    have hj : a ≠ .joined := by
      intro hj
      subst hj
      have h2 := stay (m + 1) (Nat.le_succ_of_le hm)
      unfold step at e
      simp only [htm m hm, Bool.false_eq_true, if_false, ih, h1] at e
      split at e
      · rw [← Option.some.inj e] at h2; cases h2
      · cases e
    by_cases ho : Act.ofThread id a = true
    · obtain ⟨t', k1, k2, _⟩ := h4 a _ ho e
      have hlt : rank id (σ (m + 1)) < rank id (σ m) := by simp only [rank, h1, k1]; exact k2
      exact ⟨Nat.le_of_lt hlt, fun _ _ _ => hlt, by rw [e0]; exact fun he => hj (Option.some.inj he)⟩
    · have k := (join_other ih ⟨t, h1⟩ a (by simpa using ho) hj e).2
      have heq : rank id (σ (m + 1)) = rank id (σ m) := by simp only [rank, k]
      refine ⟨Nat.le_of_eq heq, fun b hb hob => ?_, by rw [e0]; exact fun he => hj (Option.some.inj he)⟩
      rw [e0] at hb; cases hb; exact absurd hob ho
  have tk : ∀ m, i ≤ m → ∃ t, (σ m).tasks id = some t := fun m hm =>
    (C46_scheduler_stop_returns (h.reach m) (htm m hm) (stay m hm)).imp fun _ hh => hh.1
  have hend : ∃ j, i ≤ j ∧ rank id (σ j) = 0 := by
    apply Classical.byContradiction
    intro hn
    have hb : ∀ j, i ≤ j → ThBusy id (σ j) := by
      intro j hj
      obtain ⟨t, ht⟩ := tk j hj
      refine ⟨htm j hj, t, ht, fun hd => hn ⟨j, hj, ?_⟩⟩
      simp only [rank, ht, hd, Pc.rank]
    exact hn (eventually (σ := σ) (α := α) (fun a => Act.ofThread id a = true) (fun s => rank id s = 0) (fun s => rank id s) i
      (fun k hk => h.thread id k (fun j hj => hb j (Nat.le_trans hk hj)))
      (fun j hj _ => ⟨(move j hj).1, (move j hj).2.1⟩))
  obtain ⟨k, hk, hz⟩ := hend
  have hz' : ∀ j, k ≤ j → rank id (σ j) = 0 := by
    intro j hj
    induction hj with
    | refl => exact hz
    | @step m hm ih => have := (move m (Nat.le_trans hk hm)).1; exact Nat.le_zero.mp (ih ▸ this)
  obtain ⟨j, hj, a, ha, ho⟩ := h.control k (fun j hj => by
    have hij := Nat.le_trans hk hj
    obtain ⟨t, ht⟩ := tk j hij
    have hr := hz' j hj
    simp only [rank, ht] at hr
    refine ⟨htm j hij, n, id, t, stay j hij, ht, ?_⟩
    cases e : t.pc <;> rw [e] at hr <;> simp [Pc.rank] at hr ⊢)
  subst ho
  exact (move j (Nat.le_trans hk hj)).2.2 ha

/-! ### A fair execution -/

/-- A repeated task and a single one; the repeated one is stopped while it sleeps. -/
def lvScript : List (Act Nat) := [.start 1 true, .start 2 false, .test 0, .test 1, .wake 0, .finish 0, .test 0, .stop 1, .wake 1, .wake 0, .finish 1, .finish 0,
  .test 0, .joined]

def lvσ (i : Nat) : St Nat := (run false St.init (lvScript.take i)).getD St.init

def lvα (i : Nat) : Option (Act Nat) := lvScript[i]?

theorem run_append (s : St κ) (as bs : List (Act κ)) : run v s (as ++ bs) = (run v s as).bind fun s' => run v s' bs := by
  induction as generalizing s with
  | nil => rfl
  | cons a as ih =>
    simp only [List.cons_append, run]
    split
    · rfl
    · exact ih _

theorem lv_end {i : Nat} (hi : 14 ≤ i) : lvσ i = lvσ 14 := by
  unfold lvσ
  rw [List.take_of_length_le (by simpa [lvScript] using hi)]
  rfl

theorem lv_step (i : Nat) (hi : i < 14) : step false (lvσ i) lvScript[i] = some (lvσ (i + 1)) := by
  have hall : ∀ k < 15, (run false (St.init : St Nat) (lvScript.take k)).isSome = true := by decide +kernel
  have h1 := hall i (by omega)
  have h2 := hall (i + 1) (by omega)
  obtain ⟨s1, e1⟩ := Option.isSome_iff_exists.mp h1
  obtain ⟨s2, e2⟩ := Option.isSome_iff_exists.mp h2
  have k1 : lvσ i = s1 := by simp [lvσ, e1]
  have k2 : lvσ (i + 1) = s2 := by simp [lvσ, e2]
  rw [k1, k2]
  rw [List.take_add_one, List.getElem?_eq_getElem (by simpa [lvScript] using hi), run_append, e1] at e2
  simp only [Option.bind_some, Option.toList_some, run] at e2
  split at e2
  · cases e2
  · rename_i e; exact e.trans e2

/-- The execution satisfies the hypotheses of the liveness theorem, with a `stopScheduledTask` at time 8 that has to wait for an execution. -/
theorem C46_scheduler_fair_example : Run false lvσ lvα ∧ (lvσ 8).ctl = .joining 1 0 ∧ (lvσ 8).tasks 0 = some ⟨true, false, .sleeping⟩ := by
  refine ⟨⟨rfl, ?_, ?_, ?_⟩, by decide +kernel, by decide +kernel⟩
  · intro i
    by_cases hi : i < 14
    · have e : lvα i = some lvScript[i] := List.getElem?_eq_getElem (by simpa [lvScript] using hi)
      rw [e]
      exact lv_step i hi
    · have e : lvα i = none := List.getElem?_eq_none (by simp [lvScript]; omega)
      rw [e]
      show lvσ (i + 1) = lvσ i
      rw [lv_end (i := i) (by omega), lv_end (by omega)]
  · intro id i hb
    have := hb (i + 14) (by omega)
    rw [lv_end (by omega)] at this
    obtain ⟨_, t, h1, h2⟩ := this
    have hT : (lvσ 14).tasks = upd (upd (fun _ => none) 0 (some ⟨true, false, .done⟩)) 1 (some ⟨false, true, .done⟩) := by
      funext k
      by_cases k0 : k = 0
      · subst k0; decide +kernel
      by_cases k1 : k = 1
      · subst k1; decide +kernel
      simp [lvσ, lvScript, run, step, St.init, upd, k0, k1]
    rw [hT] at h1
    simp only [upd] at h1
    (repeat' split at h1) <;> cases h1 <;> exact absurd rfl h2
  · intro i hb
    have := hb (i + 14) (by omega)
    rw [lv_end (by omega)] at this
    obtain ⟨_, n, id, t, h1, _⟩ := this
    have : (lvσ 14).ctl = .idle := by decide +kernel
    rw [this] at h1; cases h1

end Verif.Sched
