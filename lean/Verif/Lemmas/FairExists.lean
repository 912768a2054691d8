import Verif.Spec.NeverStuck
import Mathlib.Data.Nat.Pairing

/-! If threads are never stuck, there are executions that are fair to all of them: serve them in turn. -/

namespace Verif.Fair

section
variable {S A : Type} (step : S → A → Option S) (R : S → Prop) (ok : S → A → Prop) (busy : Nat → S → Prop) (own : Nat → A → Prop)

open Classical in
/-- What the scheduler does at time `i`: thread `i.unpair.1` takes a step if it has something to do. -/
noncomputable def choice (hcan : ∀ t s, R s → busy t s → CanMove step ok (own t) s) (i : Nat) (s : S) : Option A :=
  if h : R s ∧ busy i.unpair.1 s then some (hcan _ _ h.1 h.2).choose else none

noncomputable def serve (hcan : ∀ t s, R s → busy t s → CanMove step ok (own t) s) (s0 : S) : Nat → S
  | 0 => s0
  | i + 1 => match choice step R ok busy own hcan i (serve hcan s0 i) with
    | some a => (step (serve hcan s0 i) a).getD (serve hcan s0 i)
    | none => serve hcan s0 i

variable {step R ok busy own}

theorem choice_spec {hcan : ∀ t s, R s → busy t s → CanMove step ok (own t) s} {i : Nat} {s : S} {a : A} (h : choice step R ok busy own hcan i s = some a) :
    own i.unpair.1 a ∧ ok s a ∧ (step s a).isSome = true := by
  unfold choice at h
  split at h
  · rename_i hb
    cases h
    exact (hcan _ _ hb.1 hb.2).choose_spec
  · cases h

theorem choice_busy {hcan : ∀ t s, R s → busy t s → CanMove step ok (own t) s} {i : Nat} {s : S} (hR : R s) (hb : busy i.unpair.1 s) :
    ∃ a, choice step R ok busy own hcan i s = some a := by
  unfold choice
  rw [dif_pos ⟨hR, hb⟩]
  exact ⟨_, rfl⟩

/-- Executions that are fair to all threads exist. -/
theorem exists_fair (hstep : ∀ s a s', R s → (∃ t, own t a) → ok s a → step s a = some s' → R s')
    (hcan : ∀ t s, R s → busy t s → CanMove step ok (own t) s) (s0 : S) (h0 : R s0) :
    ∃ (σ : Nat → S) (α : Nat → Option A), σ 0 = s0 ∧ Exec step σ α ∧ (∀ i, R (σ i)) ∧ (∀ i a, α i = some a → ok (σ i) a ∧ ∃ t, own t a) ∧
      ∀ t, FairTo (busy t) (own t) σ α := by
  let σ := serve step R ok busy own hcan s0
  let α := fun i => choice step R ok busy own hcan i (σ i)
  have hok : ∀ i a, α i = some a → ok (σ i) a ∧ ∃ t, own t a := fun i a h => ⟨(choice_spec h).2.1, _, (choice_spec h).1⟩
  have hexec : Exec step σ α := by
    intro i
    have hn : σ (i + 1) = match α i with | some a => (step (σ i) a).getD (σ i) | none => σ i := rfl
    cases h : α i with
    | none => rw [h] at hn; exact hn
    | some a =>
      rw [h] at hn
      have hn : σ (i + 1) = (step (σ i) a).getD (σ i) := hn
      obtain ⟨s', hs'⟩ := Option.isSome_iff_exists.mp (choice_spec h).2.2
      have hs' : step (σ i) a = some s' := hs'
      show step (σ i) a = some (σ (i + 1))
      rw [hn, hs', Option.getD_some]
  have hR : ∀ i, R (σ i) := by
    intro i
    induction i with
    | zero => exact h0
    | succ i ih =>
      have := hexec i
      cases h : α i with
      | none => rw [h] at this; rw [show σ (i + 1) = σ i from this]; exact ih
      | some a => rw [h] at this; exact hstep _ _ _ ih (hok i a h).2 (hok i a h).1 this
  refine ⟨σ, α, rfl, hexec, hR, hok, fun t i hb => ?_⟩
  have hle : i ≤ Nat.pair t i := Nat.right_le_pair t i
  have hu : (Nat.pair t i).unpair.1 = t := by rw [Nat.unpair_pair]
  obtain ⟨a, ha⟩ := choice_busy (hcan := hcan) (i := Nat.pair t i) (hR (Nat.pair t i)) (by rw [hu]; exact hb _ hle)
  refine ⟨Nat.pair t i, hle, a, ha, ?_⟩
  have := (choice_spec ha).1
  rw [hu] at this
  exact this

end

end Verif.Fair
