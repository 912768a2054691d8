import Verif.Model.GatingVec

/-! Specification for C89: what the list of gating sequences should be, when calls overlap, and what a data race is. -/

namespace Verif.GVec
open Verif

/-- The processors registered after a history of calls: additions append, a removal takes out every occurrence. -/
def registered : List Ev → List Nat :=
  List.foldl (fun l e => match e with
    | .add c => l ++ [c]
    | .rem x _ => l.filter (· ≠ x)
    | .min .. => l) []

/-- In `add_gating_sequences` or `remove_gating_sequence`. -/
def Pc.writer : Pc → Bool
  | .idle | .minBegin .. | .minEnd .. | .minCell .. | .minSeq .. => false
  | _ => true

/-- Calls that do not overlap: an addition or removal is begun only while no call is in progress, the minimum is asked for only while no addition or
removal is in progress.  (Several producers may ask for the minimum at the same time.) -/
def Alone (s : St) : Act → Prop
  | .callAdd _ _ | .callRem _ _ => ∀ u, s.pc u = .idle
  | .callMin _ _ => ∀ u, (s.pc u).writer = false
  | _ => True

/-- States reached by steps that satisfy `ok`. -/
inductive Reach (grow : Nat → Nat) (ok : St → Act → Prop) : St → Prop
  | init : Reach grow ok St.init
  | step {s s' : St} {a : Act} : Reach grow ok s → ok s a → step grow s a = some s' → Reach grow ok s'

/-- Plain variables: the three pointers of the vector and its elements. -/
inductive Loc where
  | start | fin | eos
  | cell (b i : Nat)
  deriving DecidableEq

/-- The next access of a thread reads this location. -/
def Pc.reads : Pc → Loc → Prop
  | .addFin _, .fin | .addEos _ _, .eos | .addAlloc _ _, .start | .minBegin _, .start | .minEnd _ _, .fin | .remBegin _, .start | .remEnd .., .fin => True
  | .addCopy _ f j _, .cell b i => j ≠ f.2 ∧ b = f.1 ∧ i = j
  | .minCell _ _ b i e _, .cell b' i' => (b, i) ≠ e ∧ b' = b ∧ i' = i
  | .remCell _ b i _ _, .cell b' i' => b' = b ∧ i' = i
  | .remMove _ b _ j f, .cell b' i' => (b, j + 1) ≠ f ∧ b' = b ∧ i' = j + 1
  | _, _ => False

/-- The next access of a thread writes this location (freeing a block counts as a write to it). -/
def Pc.writes : Pc → Loc → Prop
  | .addInc _ _, .fin | .addS2 _ _ _, .fin | .remStore .., .fin | .addS1 _ _ _, .start | .addS3 _ _, .eos => True
  | .addCell _ f, .cell b i => b = f.1 ∧ i = f.2
  | .addCopy _ f j nb, .cell b i => j ≠ f.2 ∧ b = nb ∧ i = j
  | .addFree _ f _, .cell b _ => b = f.1
  | .remMove _ b _ j f, .cell b' i' => (b, j + 1) ≠ f ∧ b' = b ∧ i' = j
  | _, _ => False

/-- Two threads are about to access the same plain variable, one of them writing. -/
def Race (s : St) : Prop := ∃ t u l, t ≠ u ∧ (s.pc t).writes l ∧ ((s.pc u).reads l ∨ (s.pc u).writes l)

/-- `res` is the minimum of `m0` and the values read. -/
def IsMin (m0 : Int) (vs : List Int) (res : Int) : Prop := (res = m0 ∨ res ∈ vs) ∧ res ≤ m0 ∧ ∀ v ∈ vs, res ≤ v

end Verif.GVec
