import Verif.Lemmas.Callback
import Mathlib.Tactic.Tauto

/-!
The single threaded handler used from inside its own callbacks (C43): what a callback may do.
-/

namespace Verif.Callback
open Verif

variable {Q R : Type}

/-- What a callback must respect to use the handler: the vector has spare room for the requests it makes; the replies it causes correlate with none of
the requests up to those whose callbacks are running; it does not throw.  (Outside callbacks everything is allowed.) -/
def Careful (corr : Q → R → Bool) (s : St Q R) : Act Q R → Prop
  | .request _ realloc => (∃ k v, Frame.calling k v ∈ s.stack) → realloc = false
  | .reply p => ∀ k v, Frame.calling k v ∈ s.stack → ∀ m x, m ≤ k → s.vec[m]? = some x → corr x.2 p = false
  | .throw => ∀ k v st, s.stack ≠ .calling k v :: st
  | .ret => True

/-- Request `i` (content `q`) is being answered: its callback is on the stack. -/
def Running (s : St Q R) (i : Nat) (q : Q) : Prop := ∃ k v, Frame.calling k v ∈ s.stack ∧ s.vec[k]? = some (i, q)

/-- Inner callbacks answer later requests. -/
def Deeper (f g : Frame) : Prop := ∀ k v k' v', f = .calling k v → g = .calling k' v' → k' < k

structure NInv (corr : Q → R → Bool) (s : St Q R) : Prop where
  sorted : s.vec.Pairwise (fun a b => a.1 < b.1)
  mem : ∀ i q, (i, q) ∈ s.vec ↔ Ev.request i q ∈ s.hist ∧ (¬ Answered s.hist i ∨ Running s i q)
  lt : ∀ i q, Ev.request i q ∈ s.hist → i < s.next
  ans : ∀ i, Answered s.hist i → i < s.next
  cnt : s.next = (s.hist.filter (fun e => match e with | .request _ _ => true | _ => false)).length
  called : ∀ i q, Running s i q → Answered s.hist i
  inside : ∀ k v, Frame.calling k v ∈ s.stack → v = true ∧ k < s.vec.length
  deeper : s.stack.Pairwise Deeper
  right : Right corr s.hist
  once : (calls s.hist).Nodup
  fine : s.undefined = false

theorem NInv.init (corr : Q → R → Bool) : NInv corr (St.init : St Q R) := by
  constructor <;> simp [St.init, Answered, Right, calls, Running]

/-- With numbers increasing along the vector, a number determines its position. -/
theorem pos_unique {vec : List (Nat × Q)} (hs : vec.Pairwise (fun a b => a.1 < b.1)) {m k : Nat} {x y : Nat × Q} (hm : vec[m]? = some x)
    (hk : vec[k]? = some y) (e : x.1 = y.1) : m = k := by
  obtain ⟨l1, e1⟩ := List.getElem?_eq_some_iff.mp hm
  obtain ⟨l2, e2⟩ := List.getElem?_eq_some_iff.mp hk
  have hp := List.pairwise_iff_getElem.mp hs
  rcases Nat.lt_trichotomy m k with hlt | heq | hgt
  · have := hp m k l1 l2 hlt; rw [e1, e2] at this; omega
  · exact heq
  · have := hp k m l2 l1 hgt; rw [e1, e2] at this; omega

theorem NInv.request {corr : Q → R → Bool} {s : St Q R} (h : NInv corr s) (q : Q) (st : List Frame) (hst : st = .publishing :: s.stack) :
    NInv corr { s with vec := s.vec ++ [(s.next, q)], next := s.next + 1, stack := st, hist := .request s.next q :: s.hist } := by
  subst hst
  have hrun : ∀ i q', Running { s with vec := s.vec ++ [(s.next, q)], next := s.next + 1, stack := .publishing :: s.stack, hist := .request s.next q :: s.hist } i q'
      ↔ Running s i q' := by
    intro i q'
    simp only [Running, List.mem_cons, reduceCtorEq, false_or]
    constructor
    · rintro ⟨k, v, h1, h2⟩
      have := (h.inside k v h1).2
      rw [List.getElem?_append_left this] at h2
      exact ⟨k, v, h1, h2⟩
    · rintro ⟨k, v, h1, h2⟩
      have := (h.inside k v h1).2
      exact ⟨k, v, h1, by rw [List.getElem?_append_left this]; exact h2⟩
  refine ⟨?_, ?_, ?_, ?_, ?_, ?_, ?_, ?_, ⟨h.cnt, h.right⟩, h.once, h.fine⟩
  · show (s.vec ++ [(s.next, q)]).Pairwise _
    rw [List.pairwise_append]
    refine ⟨h.sorted, by simp, ?_⟩
    rintro ⟨i, q'⟩ ha b hb
    simp only [List.mem_singleton] at hb
    subst hb
    exact h.lt i q' ((h.mem i q').mp ha).1
  · intro i q'
    rw [hrun]
    simp only [List.mem_append, List.mem_cons, List.not_mem_nil, or_false, h.mem, answered_cons_request, Prod.mk.injEq, Ev.request.injEq]
    constructor
    · rintro (⟨h1, h2⟩ | ⟨rfl, rfl⟩)
      · exact ⟨.inr h1, h2⟩
      · exact ⟨.inl ⟨rfl, rfl⟩, .inl fun ha => absurd (h.ans _ ha) (Nat.lt_irrefl _)⟩
    · rintro ⟨⟨rfl, rfl⟩ | h1, h2⟩
      · exact .inr ⟨rfl, rfl⟩
      · exact .inl ⟨h1, h2⟩
  · intro i q' hi
    simp only [List.mem_cons, Ev.request.injEq] at hi
    show i < s.next + 1
    rcases hi with ⟨rfl, _⟩ | hi
    · omega
    · have := h.lt i q' hi; omega
  · intro i hi
    show i < s.next + 1
    have := h.ans i (answered_cons_request.mp hi); omega
  · simp [← h.cnt]
  · intro i q' hr
    exact answered_cons_request.mpr (h.called i q' ((hrun i q').mp hr))
  · intro k v hk
    simp only [List.mem_cons, reduceCtorEq, false_or] at hk
    have := h.inside k v hk
    refine ⟨this.1, ?_⟩
    simp only [List.length_append, List.length_cons, List.length_nil]
    omega
  · show (Frame.publishing :: s.stack).Pairwise Deeper
    rw [List.pairwise_cons]
    exact ⟨fun g _ k v k' v' e => by (cases e), h.deeper⟩

/-- Only the stack changed, and not the callbacks on it. -/
theorem NInv.restack {corr : Q → R → Bool} {s : St Q R} (h : NInv corr s) {st : List Frame} (h1 : ∀ k v, Frame.calling k v ∈ st ↔ Frame.calling k v ∈ s.stack)
    (h2 : st.Pairwise Deeper) : NInv corr { s with stack := st } := by
  have hrun : ∀ i q', Running { s with stack := st } i q' ↔ Running s i q' := by
    intro i q'
    simp only [Running, h1]
  exact ⟨h.sorted, fun i q => by rw [hrun]; exact h.mem i q, h.lt, h.ans, h.cnt, fun i q hr => h.called i q ((hrun i q).mp hr),
    fun k v hk => h.inside k v ((h1 k v).mp hk), h2, h.right, h.once, h.fine⟩

theorem NInv.unmatched {corr : Q → R → Bool} {s : St Q R} (h : NInv corr s) {p : R} (hf : firstMatch corr p s.vec = none) :
    NInv corr { s with hist := .reply p none :: s.hist } := by
  refine ⟨h.sorted, ?_, ?_, ?_, by simpa using h.cnt, ?_, h.inside, h.deeper, ⟨?_, h.right⟩, h.once, h.fine⟩
  · intro i q
    show (i, q) ∈ s.vec ↔ _
    rw [h.mem, answered_cons_none]; simp [Running]
  · intro i q hi; exact h.lt i q (by simpa using hi)
  · intro i hi; exact h.ans i (answered_cons_none.mp hi)
  · intro i q hr; exact answered_cons_none.mpr (h.called i q hr)
  · intro i q hw
    exact firstMatch_none hf (i, q) ((h.mem i q).mpr ⟨hw.1, .inl hw.2⟩)

theorem NInv.matched {corr : Q → R → Bool} {s : St Q R} (h : NInv corr s) {p : R} {k i : Nat} (hf : firstMatch corr p s.vec = some (k, i))
    (hc : Careful corr s (.reply p)) : NInv corr { s with stack := .calling k true :: s.stack, hist := .reply p (some i) :: s.hist } := by
  obtain ⟨q, h1, h2, h3⟩ := firstMatch_some h.sorted hf
  have hm : (i, q) ∈ s.vec := List.mem_of_getElem? h1
  have hlt : ∀ k' v, Frame.calling k' v ∈ s.stack → k' < k := by
    intro k' v hk'
    by_contra hge
    have := hc k' v hk' k (i, q) (by omega) h1
    rw [h2] at this; cases this
  have hnr : ¬ Running s i q := by
    rintro ⟨k', v, a, b⟩
    have := hlt k' v a
    have := pos_unique h.sorted b h1 rfl
    omega
  have hmem := (h.mem i q).mp hm
  have hna : ¬ Answered s.hist i := by tauto
  have hrun : ∀ j q', Running { s with stack := .calling k true :: s.stack, hist := .reply p (some i) :: s.hist } j q' ↔ (j, q') = (i, q) ∨ Running s j q' := by
    intro j q'
    simp only [Running, List.mem_cons, Frame.calling.injEq]
    constructor
    · rintro ⟨k', v, ⟨rfl, rfl⟩ | a, b⟩
      · rw [h1] at b; exact .inl (Option.some.inj b).symm
      · exact .inr ⟨k', v, a, b⟩
    · rintro (e | ⟨k', v, a, b⟩)
      · exact ⟨k, true, .inl ⟨rfl, rfl⟩, by rw [h1, e]⟩
      · exact ⟨k', v, .inr a, b⟩
  have hw : ∀ j q', Waiting s.hist j q' → (j, q') ∈ s.vec := fun j q' hw => (h.mem j q').mpr ⟨hw.1, .inl hw.2⟩
  refine ⟨h.sorted, ?_, ?_, ?_, by simpa using h.cnt, ?_, ?_, ?_, ⟨⟨⟨q, ⟨hmem.1, hna⟩, h2⟩, ?_⟩, h.right⟩, ?_, h.fine⟩
  · intro j q'
    show (j, q') ∈ s.vec ↔ _
    rw [hrun, answered_cons_some]
    simp only [List.mem_cons, reduceCtorEq, false_or]
    constructor
    · intro hj
      have hj' := (h.mem j q').mp hj
      refine ⟨hj'.1, ?_⟩
      by_cases e : j = i
      · subst e
        obtain ⟨m, hm'⟩ := List.getElem?_of_mem hj
        have := pos_unique h.sorted hm' h1 rfl
        subst this
        rw [h1] at hm'
        exact .inr (.inl (Option.some.inj hm').symm)
      · rcases hj'.2 with a | a
        · exact .inl (by rintro (b | b); exact e b; exact a b)
        · exact .inr (.inr a)
    · rintro ⟨a, b | b | b⟩
      · exact (h.mem j q').mpr ⟨a, .inl fun c => b (.inr c)⟩
      · rw [b]; exact hm
      · exact (h.mem j q').mpr ⟨a, .inr b⟩
  · intro j q' hj; exact h.lt j q' (by simpa using hj)
  · intro j hj
    rcases answered_cons_some.mp hj with rfl | hj
    · exact h.lt _ q hmem.1
    · exact h.ans j hj
  · intro j q' hr
    rw [hrun] at hr
    rcases hr with e | hr
    · cases e; exact answered_cons_some.mpr (.inl rfl)
    · exact answered_cons_some.mpr (.inr (h.called j q' hr))
  · intro k' v hk'
    rcases List.mem_cons.mp hk' with e | hk'
    · cases e; exact ⟨rfl, (List.getElem?_eq_some_iff.mp h1).1⟩
    · exact h.inside k' v hk'
  · show (Frame.calling k true :: s.stack).Pairwise Deeper
    rw [List.pairwise_cons]
    refine ⟨?_, h.deeper⟩
    intro g hg k1 v1 k2 v2 e1 e2
    cases e1
    subst e2
    exact hlt k2 v2 hg
  · intro j q' hj hcr
    exact h3 (j, q') (hw j q' hj) hcr
  · have : calls (Ev.reply (Q := Q) p (some i) :: s.hist) = i :: calls s.hist := rfl
    show (calls (Ev.reply (Q := Q) p (some i) :: s.hist)).Nodup
    rw [this, List.nodup_cons]
    exact ⟨fun hc => hna (mem_calls.mp hc), h.once⟩

theorem map_erased {st : List Frame} {k : Nat} (h : ∀ k' v, Frame.calling k' v ∈ st → k' < k) : st.map (Frame.erased k) = st := by
  conv => rhs; rw [← List.map_id st]
  apply List.map_congr_left
  intro f hf
  cases f with
  | publishing => rfl
  | calling k' v => have := h k' v hf; simp [Frame.erased, this]

theorem NInv.erase {corr : Q → R → Bool} {s : St Q R} (h : NInv corr s) {k : Nat} {st : List Frame} (hst : s.stack = .calling k true :: st) :
    NInv corr { s with vec := s.vec.eraseIdx k, stack := st.map (Frame.erased k) } := by
  have hd := h.deeper
  rw [hst, List.pairwise_cons] at hd
  have hlt : ∀ k' v, Frame.calling k' v ∈ st → k' < k := fun k' v hk' => hd.1 _ hk' k true k' v rfl rfl
  rw [map_erased hlt]
  have hkl := (h.inside k true (by rw [hst]; exact List.mem_cons_self ..)).2
  obtain ⟨⟨i, q⟩, hk⟩ : ∃ x, s.vec[k]? = some x := ⟨_, List.getElem?_eq_getElem hkl⟩
  have hi : Answered s.hist i := h.called i q ⟨k, true, by rw [hst]; exact List.mem_cons_self .., hk⟩
  have hget : ∀ k' v, Frame.calling k' v ∈ st → (s.vec.eraseIdx k)[k']? = s.vec[k']? := by
    intro k' v hk'
    rw [List.getElem?_eraseIdx, if_pos (hlt k' v hk')]
  have hrun : ∀ j q', Running { s with vec := s.vec.eraseIdx k, stack := st } j q' ↔ Running s j q' ∧ j ≠ i := by
    intro j q'
    constructor
    · rintro ⟨k', v, a, b⟩
      change Frame.calling k' v ∈ st at a
      change (s.vec.eraseIdx k)[k']? = _ at b
      rw [hget k' v a] at b
      refine ⟨⟨k', v, by rw [hst]; exact List.mem_cons_of_mem _ a, b⟩, ?_⟩
      rintro rfl
      have := pos_unique h.sorted b hk rfl
      have := hlt k' v a
      omega
    · rintro ⟨⟨k', v, a, b⟩, c⟩
      rw [hst] at a
      rcases List.mem_cons.mp a with e | a
      · cases e; rw [hk] at b; cases b; exact absurd rfl c
      · exact ⟨k', v, a, by show (s.vec.eraseIdx k)[k']? = _; rw [hget k' v a]; exact b⟩
  have hji : ∀ j q', (j, q') ∈ s.vec.eraseIdx k ↔ (j, q') ∈ s.vec ∧ j ≠ i := by
    intro j q'
    rw [List.mem_eraseIdx_iff_getElem?]
    constructor
    · rintro ⟨m, hm, hm'⟩
      exact ⟨List.mem_of_getElem? hm', fun e => hm (pos_unique h.sorted hm' hk e)⟩
    · rintro ⟨hm, hne⟩
      obtain ⟨m, hm'⟩ := List.getElem?_of_mem hm
      refine ⟨m, ?_, hm'⟩
      rintro rfl
      rw [hk] at hm'
      cases hm'
      exact hne rfl
  refine ⟨h.sorted.sublist (List.eraseIdx_sublist ..), ?_, h.lt, h.ans, h.cnt, ?_, ?_, hd.2, h.right, h.once, h.fine⟩
  · intro j q'
    show (j, q') ∈ s.vec.eraseIdx k ↔ _
    rw [hji, hrun, h.mem]
    constructor
    · rintro ⟨⟨a, b | b⟩, c⟩
      · exact ⟨a, .inl b⟩
      · exact ⟨a, .inr ⟨b, c⟩⟩
    · rintro ⟨a, b | b⟩
      · exact ⟨⟨a, .inl b⟩, by rintro rfl; exact b hi⟩
      · exact ⟨⟨a, .inr b.1⟩, b.2⟩
  · intro j q' hr; exact h.called j q' ((hrun j q').mp hr).1
  · intro k' v hk'
    refine ⟨(h.inside k' v (by rw [hst]; exact List.mem_cons_of_mem _ hk')).1, ?_⟩
    have := hlt k' v hk'
    show k' < (s.vec.eraseIdx k).length
    rw [List.length_eraseIdx, if_pos hkl]
    omega

theorem NInv.step {corr : Q → R → Bool} {s s' : St Q R} {a : Act Q R} (h : NInv corr s) (hP : Careful corr s a) (hs : Callback.step corr s a = some s') :
    NInv corr s' := by
  have pop : ∀ st, s.stack = .publishing :: st → NInv corr { s with stack := st } := by
    intro st e
    refine h.restack (fun k v => by rw [e]; simp) ?_
    have := h.deeper
    rw [e, List.pairwise_cons] at this
    exact this.2
  cases a with
  | request q r =>
    simp only [Callback.step, Option.some.injEq] at hs
    subst hs
    refine h.request q _ ?_
    congr 1
    split
    · next hr =>
      subst hr
      conv => rhs; rw [← List.map_id s.stack]
      apply List.map_congr_left
      intro f hf
      cases f with
      | publishing => rfl
      | calling k v => have := hP ⟨k, v, hf⟩; cases this
    · rfl
  | reply p =>
    simp only [Callback.step] at hs
    split at hs
    · next hf => cases hs; exact h.unmatched hf
    · next k i hf => cases hs; exact h.matched hf hP
  | ret =>
    simp only [Callback.step] at hs
    split at hs
    · cases hs
    · next st e => cases hs; exact pop st e
    · next k v st e =>
      have := (h.inside k v (by rw [e]; exact List.mem_cons_self ..)).1
      subst this
      simp only [if_true, Option.some.injEq] at hs
      subst hs
      exact h.erase e
  | throw =>
    simp only [Callback.step] at hs
    split at hs
    · cases hs
    · next f st e =>
      cases hs
      cases f with
      | publishing => exact pop st e
      | calling k v => exact absurd e (hP k v st)

theorem Reach.ninv {corr : Q → R → Bool} {s : St Q R} (h : Reach corr (Careful corr) s) : NInv corr s := by
  induction h with
  | init => exact NInv.init corr
  | step _ hP hs ih => exact ih.step hP hs

end Verif.Callback
