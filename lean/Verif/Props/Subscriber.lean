import Verif.Lemmas.Subscriber
import Mathlib.Order.Nat

/-! Properties of `EventEmitterSubscriber` (C20). -/

namespace Verif.Sub
open Verif

variable {κ β ε : Type}

/-- A new subscriber. -/
def newSafe : St (SafeEE.St κ β) κ := ⟨SafeEE.St.init, fun _ => none⟩
def newMulti : St (MultiEE.St κ β) κ := ⟨MultiEE.St.init, fun _ => none⟩

theorem MapInv.empty [DecidableEq κ] : MapInv (fun _ => none) ([] : List (NL κ β)) := by
  constructor <;> simp

/-- **C20** with a `SafeEventEmitter`: for every history of fewer than 2^32 registrations in which no name in use is registered
again and no statistics of an unknown name are asked for, every operation behaves as on a list of uniquely named callbacks:
in particular removal of a name removes exactly the listener of that name and never throws.
Missing for the full property: the two excluded kinds of calls, see below. -/
theorem C20_safe_subscriber_partial [LinearOrder κ] (ev : κ) (os : List (Op κ β ε)) (hc : SubSpec.regs os < 2 ^ 32)
    (hg : SubSpec.Good true [] os) :
    (runOps (safeE ev) newSafe os).2 = (SubSpec.runOps [] os).2 := by
  have h : SafeInv ev (newSafe : St (SafeEE.St κ β) κ) 0 [] := ⟨SafeEE.R.init, MapInv.empty⟩
  exact h.run os (by omega) hg

/-- **C20** with an `UnsafeMultiListenerEventEmitter`: the same, and registering a name in use is harmless.
Missing: asking for the statistics of an unknown name, after which it fails (`C20_stats_query_redirects_removal`). -/
theorem C20_multi_subscriber_partial [DecidableEq κ] (b : Bool) (ev : κ) (os : List (Op κ β ε))
    (hg : SubSpec.Good false [] os) :
    (runOps (multiE b ev) newMulti os).2 = (SubSpec.runOps [] os).2 := by
  have h : MultiInv ev (newMulti : St (MultiEE.St κ β) κ) 0 [] := ⟨MultiEE.Inv.init, MapInv.empty⟩
  exact h.run os hg

/-- What the specification says, for a reader: after any history, removing `n` does not affect which callbacks of other names
are called, and `n` itself is not called. -/
theorem C20_spec_remove [DecidableEq κ] (r : List (κ × β)) (n : κ) (x : κ × β) :
    x ∈ (SubSpec.apply r (.rem n : Op κ β ε)).1 ↔ x ∈ r ∧ x.1 ≠ n := by
  simp [SubSpec.apply]

/-- **C20** fails: asking for the statistics of the unknown name 2 and then removing name 2 removes the listener
registered under name 1 of a multi-listener emitter. -/
theorem C20_stats_query_redirects_removal :
    (runOps (multiE false (9 : Nat)) newMulti
      [.reg 1 'a', .stats 2, .emit 0, .rem 2, (.emit 1 : Op Nat Char Nat)]).2
    = [.done, .done, .calls [('a', 0)], .done, .calls []] := by decide +kernel

/-- **C20** fails: with a safe emitter the same query makes the removal throw. -/
theorem C20_stats_query_removal_throws :
    (runOps (safeE (9 : Nat)) newSafe
      [.reg 1 'a', .stats 2, .rem 2, (.emit 1 : Op Nat Char Nat)]).2
    = [.done, .done, .threw, .calls [('a', 1)]] := by decide +kernel

/-- **C20** fails: a name registered twice on a safe emitter is called twice and the first callback stays after the name has been
removed. -/
theorem C20_safe_duplicate_name_leaks :
    (runOps (safeE (9 : Nat)) newSafe
      [.reg 1 'a', .reg 1 'b', .emit 0, .rem 1, .emit 1, .rem 1, (.emit 2 : Op Nat Char Nat)]).2
    = [.done, .done, .calls [('a', 0), ('b', 0)], .done, .calls [('a', 1)], .done, .calls [('a', 2)]] := by
  decide +kernel

/-- The duplicate leaks for every later history of removals of that name. -/
theorem C20_safe_duplicate_never_removed (m : Nat) :
    ∃ s : St (SafeEE.St Nat Char) Nat,
      s = (runOps (safeE (9 : Nat)) newSafe
        ([.reg 1 'a', .reg 1 'b'] ++ List.replicate (m + 1) (.rem 1 : Op Nat Char Nat))).1 ∧
      ((apply (safeE 9) s (.emit 5 : Op Nat Char Nat)).2 = .calls [('a', 5)]) := by
  have key : ∀ k (s : St (SafeEE.St Nat Char) Nat), s.map 1 = none →
      (runOps (safeE (9 : Nat)) s (List.replicate k (.rem 1 : Op Nat Char Nat))).1 = s := by
    intro k
    induction k with
    | zero => intro s _; rfl
    | succ k ih =>
      intro s hs
      simp only [List.replicate_succ, runOps, apply, remove, hs]
      exact ih s hs
  refine ⟨_, rfl, ?_⟩
  rw [List.replicate_succ]
  simp only [List.cons_append, List.nil_append, runOps]
  rw [key m]
  · decide +kernel
  · decide +kernel

/-- The hypotheses hold of a non-trivial history. -/
example : (runOps (multiE true (9 : Nat)) newMulti
      [.reg 1 'a', .reg 2 'b', .reg 1 'c', .stats 1, .emit 0, .rem 1, (.emit 1 : Op Nat Char Nat), .rem 7]).2
    = (SubSpec.runOps [] [.reg 1 'a', .reg 2 'b', .reg 1 'c', .stats 1, .emit 0, .rem 1, (.emit 1 : Op Nat Char Nat), .rem 7]).2 :=
  C20_multi_subscriber_partial _ _ _ (by simp [SubSpec.Good, SubSpec.apply])

example : (runOps (safeE (9 : Nat)) newSafe
      [.reg 1 'a', .reg 2 'b', .rem 1, .reg 1 'c', .stats 1, .emit 0, (.emit 1 : Op Nat Char Nat), .rem 7]).2
    = (SubSpec.runOps [] [.reg 1 'a', .reg 2 'b', .rem 1, .reg 1 'c', .stats 1, .emit 0, (.emit 1 : Op Nat Char Nat), .rem 7]).2 :=
  C20_safe_subscriber_partial _ _ (by decide) (by simp [SubSpec.Good, SubSpec.apply])

end Verif.Sub
