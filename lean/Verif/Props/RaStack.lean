import Verif.Lemmas.RaStack

/-! Properties of the lock-free stack with the memory orders of the code (C67). -/

namespace Verif.RaStack
open Verif Verif.RA Verif.LFS

variable {α : Type} {cap : Nat} {d : Nat → α} {s : St α}

/-- **C67** (one order): whatever stale values threads read, the successful calls take effect one at a time, in one order for all threads, on a plain
bounded stack that starts with all elements: every element taken is the one on top.  Provided dependent reads are ordered (`dep = true`) and the 16 bit counter
does not make a full turn under a pending `_pop`.
Missing: without the ordering of dependent reads, which the relaxed load does not give in C++ (C67_violation_stale_link). -/
theorem C67_updates_are_a_stack_partial (hcap : 1 ≤ cap) (h : Reach true cap d s) (hlate : s.late = false) :
    ∃ l, Replays ((List.range (min cap 65535)).map d) (s.log .head) l ∧ l.length ≤ min cap 65535 := by
  obtain ⟨L, hl, hi⟩ := h.inv hcap hlate
  refine ⟨_, hi.rep .head, ?_⟩
  have := hi.base.perm.length_eq
  simp at this ⊢
  omega

/-- **C67** (results): what the calls of a thread return is what the thread did in that order: its calls of `pop` return the elements it took, in order (one may
still be on its way), and the elements it put are the arguments of its calls of `push` that returned true.
Missing: as above. -/
theorem C67_results_partial (hcap : 1 ≤ cap) (h : Reach true cap d s) (hlate : s.late = false) (t : Nat) :
    takes t (s.log .head) = popResults (s.rets t) ++ pending s t ∧ puts t (s.log .head) = pushResults (s.rets t) := by
  obtain ⟨L, hl, hi⟩ := h.inv hcap hlate
  exact ⟨hi.tk t, hi.pt t⟩

/-- **C67** (refusals): when a call is refused, the list it needs a node from was empty after some number `j` of its updates, and every update that
happens before the call is among these `j`.  For `pop` the list is the stack itself: it was empty; a push that happens before the call is not overlooked.
Missing: as above. -/
theorem C67_refused_partial (hcap : 1 ≤ cap) (h : Reach true cap d s) (hlate : s.late = false) {t : Nat} {s' : St α} (hs : step true s (.giveUp t) = some s') :
    ∃ c j, s.rets t ++ [(c, c.failRes)] = s'.rets t ∧ s.known t ≤ j ∧ j ≤ (s.log c.src).length ∧
      Replays (start cap d c.src) ((s.log c.src).take j) [] := by
  obtain ⟨L, hl, hi⟩ := h.inv hcap hlate
  simp only [step] at hs
  split at hs
  · next c orig j hp =>
    split at hs <;> cases hs
    next hu =>
    have hloc := hi.loc t
    simp only [Loc, hp] at hloc
    obtain ⟨_, hk, g, hg, ho⟩ := hloc
    have hlt : j < (s.mem.msgs (hv c.src)).length := by
      by_contra hn
      rw [List.getElem?_eq_none (by omega)] at hg; cases hg
    have hlen := hi.len c.src
    exact ⟨c, j, by simp, hk, by omega, hi.emp c.src j g hg (by rw [ho]; exact hu)⟩
  · cases hs

/-- What `known` is: the number of updates of the list that happen before the call. -/
theorem C67_known {dep : Bool} {t : Nat} {c : Call α} {s' : St α} (hs : step dep s (.call t c) = some s') :
    s'.known t = (s.mem.view t).a (hv c.src) := by
  simp only [step] at hs
  split at hs <;> cases hs
  simp

/-- A thread knows its own updates ... -/
theorem C67_own_update_known (hcap : 1 ≤ cap) (h : Reach true cap d s) {t : Nat} {s' : St α} (hs : step true s (.cas t) = some s') (hlate : s'.late = false) :
    ∃ w, (s'.log w).length = (s.log w).length + 1 ∧ (s'.log w).length ≤ (s'.mem.view t).a (hv w) := by
  obtain ⟨L, hl, hi⟩ := h.inv hcap (step_late hs hlate)
  simp only [step] at hs
  (repeat' split at hs) <;> first | cases hs | skip
  · rename_i c orig j n hp _ _ _ _ _ _ _ _ _ _ _ hm
    obtain ⟨g, _, _, rfl⟩ := rmw_some hm
    refine ⟨c.src, by simp, ?_⟩
    have := hi.len c.src
    simp only [upd_same, List.length_append, List.length_singleton, View.see_a_same]
    omega
  · rename_i c i v orig hp _ _ _ _ _ _ _ _ _ _ _ hm
    obtain ⟨g, _, _, rfl⟩ := rmw_some hm
    refine ⟨c.dst, by simp, ?_⟩
    have := hi.len c.dst
    simp only [upd_same, List.length_append, List.length_singleton, View.see_a_same]
    omega

/-- ... never forgets any, and learns those of a thread it synchronises with. -/
theorem C67_known_grows {dep : Bool} {s s' : St α} {a : Act α} (hs : step dep s a = some s') (t l : Nat) :
    (s.mem.view t).a l ≤ (s'.mem.view t).a l ∧ ∀ u, a = .sync t u → (s.mem.view u).a l ≤ (s'.mem.view t).a l := by
  have key : ∀ t', (∃ v, (∀ l, (s.mem.view t').a l ≤ v.a l) ∧ s'.mem.view = upd s.mem.view t' v) → (s.mem.view t).a l ≤ (s'.mem.view t).a l := by
    rintro t' ⟨v, hv, e⟩
    rw [e]
    by_cases h : t = t'
    · subst h; rw [upd_same]; exact hv l
    · rw [upd_other _ _ h]; exact Nat.le_refl _
  refine ⟨?_, ?_⟩
  · cases a with
    | call t' c =>
      simp only [step] at hs
      split at hs <;> cases hs
      exact Nat.le_refl _
    | load t' j =>
      simp only [step] at hs
      (repeat' split at hs) <;> first | cases hs | skip
      all_goals
        rename_i hm
        obtain ⟨g, _, _, _, rfl⟩ := loadRlx_some hm
        exact key t' ⟨_, (vle_see _ _ _).1, rfl⟩
    | giveUp t' =>
      simp only [step] at hs
      (repeat' split at hs) <;> first | cases hs | skip
      all_goals exact Nat.le_refl _
    | link t' k =>
      simp only [step] at hs
      (repeat' split at hs) <;> first | cases hs | skip
      rename_i hm
      obtain ⟨g, _, _, _, rfl⟩ := loadRlx_some hm
      exact key t' ⟨_, (vle_see _ _ _).1, rfl⟩
    | data t' =>
      simp only [step] at hs
      (repeat' split at hs) <;> first | cases hs | skip
      · refine key t' ⟨_, ?_, rfl⟩; exact fun _ => Nat.le_refl _
      · rename_i hm
        obtain ⟨_, rfl⟩ := Mem.read_some hm
        refine key t' ⟨_, ?_, rfl⟩; exact fun _ => Nat.le_refl _
    | setLink t' =>
      simp only [step] at hs
      split at hs <;> cases hs
      exact key t' ⟨_, (vle_see _ _ _).1, rfl⟩
    | cas t' =>
      simp only [step] at hs
      (repeat' split at hs) <;> first | cases hs | skip
      all_goals
        rename_i hm
        obtain ⟨g, _, _, rfl⟩ := rmw_some hm
        exact key t' ⟨_, ((vle_joinL _ _).trans (vle_see _ _ _)).1, rfl⟩
    | casFail t' j =>
      simp only [step] at hs
      (repeat' split at hs) <;> first | cases hs | skip
      all_goals
        rename_i hm
        obtain ⟨g, _, _, _, rfl⟩ := Mem.load_some hm
        exact key t' ⟨_, ((vle_joinL _ _).trans (vle_see _ _ _)).1, rfl⟩
    | sync t' u =>
      cases hs
      exact key t' ⟨_, (vle_joinL _ _).1, rfl⟩
  · rintro u rfl
    cases hs
    show _ ≤ View.a (upd _ _ _ _) l
    rw [upd_same]
    exact (vle_joinR _ _).1 l

/-- **C67** (one owner): a node is never in the hands of two threads, and while it is it is on no list.
Missing: as above. -/
theorem C67_one_owner_partial (hcap : 1 ≤ cap) (h : Reach true cap d s) (hlate : s.late = false) {t u i : Nat} (ht : owns s t i) (hu : owns s u i) : t = u := by
  obtain ⟨L, hl, hi⟩ := h.inv hcap hlate
  have key : ∀ v, owns s v i → (s.pc v).cell = some i := by
    intro v hv
    cases hp : s.pc v <;> simp_all [owns, PC.cell]
  exact hi.base.cell_inj (s := proj d s) (key t ht) (key u hu)

/-- **C67** (elements): the element in a node is accessed only by the thread that owns it, after everything any thread did to it before: neither the write of
`push` nor the move of `pop` is a data race.
Missing: as above. -/
theorem C67_elements_ordered_partial (hcap : 1 ≤ cap) (h : Reach true cap d s) (hlate : s.late = false) {t i : Nat} (ht : owns s t i) :
    s.mem.WriteOrdered t i ∧ s.mem.ReadOrdered t i := by
  obtain ⟨L, hl, hi⟩ := h.inv hcap hlate
  have hc : (s.pc t).cell = some i := by cases hp : s.pc t <;> simp_all [owns, PC.cell]
  have hk := hi.own t i hc
  exact ⟨hk.2, hk.2.1⟩

/-- Every access to an element is made by a thread that owns the node. -/
theorem C67_data_owned {dep : Bool} {t : Nat} {s' : St α} (hs : step dep s (.data t) = some s') : ∃ i, owns s t i ∧ owns s' t i := by
  simp only [step] at hs
  split at hs
  · next x i hp => cases hs; exact ⟨i, by simp [owns, hp], by simp [owns]⟩
  · next i hp =>
    split at hs <;> cases hs
    exact ⟨i, by simp [owns, hp], by simp [owns]⟩
  · cases hs

/-! ### The relaxed load -/

/-- Thread 0 pops both elements of a stack of two and pushes 7. -/
def before : List (Act Nat) :=
  [.call 0 .pop, .load 0 0, .link 0 0, .cas 0, .data 0, .load 0 0, .setLink 0, .cas 0,
   .call 0 .pop, .load 0 1, .link 0 0, .cas 0, .data 0, .load 0 1, .setLink 0, .cas 0,
   .call 0 (.push 7), .load 0 2, .link 0 1, .cas 0, .data 0, .load 0 2, .setLink 0, .cas 0]

/-- Thread 1 then pops twice; its first read of a link returns the old message 1. -/
def after : List (Act Nat) :=
  [.call 1 .pop, .load 1 3, .link 1 1, .cas 1, .data 1, .load 1 3, .setLink 1, .cas 1,
   .call 1 .pop, .load 1 4, .link 1 1, .cas 1, .data 1, .load 1 4, .setLink 1, .cas 1]

/-- **C67** fails for the C++ memory model: the relaxed load of the head (112) does not order the read of the link after the write of the thread that pushed.
A pop of thread 1 reads the head of the third update and an older link, its compare-and-swap succeeds (no counter turn is involved), and the next pop returns
element 0, which thread 0 has already got: two owners of one pooled object. -/
theorem C67_violation_stale_link : (run false (St.init 2 id) (before ++ after)).map (fun s => (s.rets 0, s.rets 1, s.late)) =
    some ([(.pop, .popped (some 0)), (.pop, .popped (some 1)), (.push 7, .pushed true)],
      [(.pop, .popped (some 7)), (.pop, .popped (some 0))], false) := by decide +kernel

/-- With dependent reads ordered the same read must return the newest link: the stale one is not possible ... -/
theorem C67_example_stale_refused : (run true (St.init 2 id) (before ++ after.take 3)).isNone := by decide +kernel

/-- ... and with the newest one the second pop finds the stack empty. -/
theorem C67_example : (run true (St.init 2 id) (before ++
    [.call 1 .pop, .load 1 3, .link 1 2, .cas 1, .data 1, .load 1 3, .setLink 1, .cas 1, .call 1 .pop, .load 1 4, .giveUp 1])).map
      (fun s => (s.rets 1, s.log .head, s.late)) =
    some ([(.pop, .popped (some 7)), (.pop, .popped none)],
      [⟨false, 0, 0⟩, ⟨false, 0, 1⟩, ⟨true, 0, 7⟩, ⟨false, 1, 7⟩], false) := by decide +kernel

/-- Stale values are within the theorems: thread 1, which has not synchronised with thread 0, may still find the stack empty after thread 0 has pushed ... -/
theorem C67_example_stale_empty : (run true (St.init 2 id) (before ++ [.call 1 .pop, .load 1 2, .giveUp 1])).map (fun s => s.rets 1) =
    some [(.pop, .popped none)] := by decide +kernel

/-- ... but not if the push happens before the call. -/
theorem C67_example_sync : (run true (St.init 2 id) (before ++ [.sync 1 0, .call 1 .pop, .load 1 2])).isNone := by decide +kernel

/-- A compare-and-swap with an old head fails and is repeated. -/
theorem C67_example_retry : (run true (St.init 3 id)
    [.call 0 .pop, .load 0 0, .link 0 0, .call 1 .pop, .load 1 0, .link 1 0, .cas 1, .casFail 0 1, .link 0 0, .cas 0, .data 1, .data 0]).map
      (fun s => (s.pc 0, s.pc 1)) = some (.filled .pop 1 1, .filled .pop 0 0) := by decide +kernel

end Verif.RaStack
