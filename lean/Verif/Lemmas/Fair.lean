import Verif.Spec.Fair

/-! A measure that every turn of a fair thread makes smaller brings the goal. -/

namespace Verif.Fair

theorem eventually {S A : Type} {σ : Nat → S} {α : Nat → Option A} (own : A → Prop) (G : S → Prop) (μ : S → Nat) (i : Nat)
    (hf : ∀ k, i ≤ k → ∃ j, k ≤ j ∧ ∃ a, α j = some a ∧ own a)
    (hs : ∀ j, i ≤ j → ¬ G (σ j) → μ (σ (j + 1)) ≤ μ (σ j) ∧ (∀ a, α j = some a → own a → μ (σ (j + 1)) < μ (σ j))) : ∃ j, i ≤ j ∧ G (σ j) := by
  apply Classical.byContradiction
  intro hno
  have hg : ∀ j, i ≤ j → ¬ G (σ j) := fun j hj h => hno ⟨j, hj, h⟩
  have mono : ∀ k j, i ≤ k → k ≤ j → μ (σ j) ≤ μ (σ k) := by
    intro k j hk hj
    induction hj with
    | refl => exact Nat.le_refl _
    | step hm ih => exact Nat.le_trans (hs _ (Nat.le_trans hk hm) (hg _ (Nat.le_trans hk hm))).1 ih
  have key : ∀ m k, i ≤ k → μ (σ k) ≤ m → False := by
    intro m
    induction m with
    | zero =>
      intro k hk hm
      obtain ⟨j, hj, a, ha, ho⟩ := hf k hk
      have h1 := (hs j (Nat.le_trans hk hj) (hg j (Nat.le_trans hk hj))).2 a ha ho
      have h2 := mono k j hk hj
      omega
    | succ m ih =>
      intro k hk hm
      obtain ⟨j, hj, a, ha, ho⟩ := hf k hk
      have h1 := (hs j (Nat.le_trans hk hj) (hg j (Nat.le_trans hk hj))).2 a ha ho
      have h2 := mono k j hk hj
      exact ih (j + 1) (by omega) (by omega)
  exact key _ i (Nat.le_refl _) (Nat.le_refl _)

end Verif.Fair
