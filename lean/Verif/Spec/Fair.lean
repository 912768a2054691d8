/-!
Infinite executions and fairness, for the liveness claims.  Nothing of the repository is modelled here.
-/

namespace Verif.Fair

/-- An infinite execution of a transition system: at every moment one action is taken, or nothing happens (`none`). -/
def Exec {S A : Type} (step : S → A → Option S) (σ : Nat → S) (α : Nat → Option A) : Prop :=
  ∀ i, match α i with
    | none => σ (i + 1) = σ i
    | some a => step (σ i) a = some (σ (i + 1))

/-- A scheduler that does not forget a thread: the thread, whose actions are those with `own`, takes a step again and again as long
as it has work to do (`busy`). -/
def FairTo {S A : Type} (busy : S → Prop) (own : A → Prop) (σ : Nat → S) (α : Nat → Option A) : Prop :=
  ∀ i, (∀ j, i ≤ j → busy (σ j)) → ∃ j, i ≤ j ∧ ∃ a, α j = some a ∧ own a

end Verif.Fair
