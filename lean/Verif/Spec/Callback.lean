/-!
Matching of replies to requests (C43), stated on histories.  Requests are numbered in the order they were issued.
-/

namespace Verif.Callback

/-- What happened: request `i` with content `q` was issued; reply `p` arrived and was given to the callback of request `i`, or to nobody. -/
inductive Ev (Q R : Type) where
  | request (i : Nat) (q : Q)
  | reply (p : R) (dst : Option Nat)
  deriving DecidableEq

variable {Q R : Type}

/-- Some reply in the history was given to the callback of request `i`. -/
def Answered (h : List (Ev Q R)) (i : Nat) : Prop := ∃ p, Ev.reply p (some i) ∈ h

/-- Request `i` with content `q` waits for its reply. -/
def Waiting (h : List (Ev Q R)) (i : Nat) (q : Q) : Prop := Ev.request i q ∈ h ∧ ¬ Answered h i

/-- Reply `p`, arriving after history `h`, may be given to `dst`: to the oldest waiting request it correlates with, to nobody if there is none. -/
def MatchOk (corr : Q → R → Bool) (h : List (Ev Q R)) (p : R) : Option Nat → Prop
  | none => ∀ i q, Waiting h i q → corr q p = false
  | some i => (∃ q, Waiting h i q ∧ corr q p = true) ∧ ∀ j q, Waiting h j q → corr q p = true → i ≤ j

/-- The history (newest event first) is right: every reply was matched as it should; requests are numbered 0, 1, 2, … -/
def Right (corr : Q → R → Bool) : List (Ev Q R) → Prop
  | [] => True
  | .request i _ :: h => i = (h.filter (fun e => match e with | .request _ _ => true | _ => false)).length ∧ Right corr h
  | .reply p dst :: h => MatchOk corr h p dst ∧ Right corr h

/-- The calls of request callbacks, newest first. -/
def calls (h : List (Ev Q R)) : List Nat := h.filterMap (fun e => match e with | .reply _ dst => dst | _ => none)

end Verif.Callback
