import Verif.Model.Callback
import Mathlib.Data.List.Nodup
import Mathlib.Order.Defs.LinearOrder
import Mathlib.Order.Nat

namespace Verif.Callback
open Verif

variable {Q R : Type}

theorem firstMatch_none {corr : Q → R → Bool} {p : R} {l : List (Nat × Q)} (h : firstMatch corr p l = none) : ∀ x ∈ l, corr x.2 p = false := by
  induction l with
  | nil => simp
  | cons a l ih =>
    obtain ⟨i, q⟩ := a
    simp only [firstMatch] at h
    split at h
    · cases h
    · next hc =>
      simp only [Option.map_eq_none_iff] at h
      intro x hx
      rcases List.mem_cons.mp hx with rfl | hx
      · simpa using hc
      · exact ih h x hx

theorem firstMatch_some {corr : Q → R → Bool} {p : R} {l : List (Nat × Q)} {k i : Nat} (hs : l.Pairwise (fun a b => a.1 < b.1))
    (h : firstMatch corr p l = some (k, i)) :
    ∃ q, l[k]? = some (i, q) ∧ corr q p = true ∧ ∀ x ∈ l, corr x.2 p = true → i ≤ x.1 := by
  induction l generalizing k with
  | nil => cases h
  | cons a l ih =>
    obtain ⟨j, q⟩ := a
    simp only [firstMatch] at h
    rw [List.pairwise_cons] at hs
    split at h
    · next hc =>
      cases h
      refine ⟨q, rfl, hc, ?_⟩
      intro x hx _
      rcases List.mem_cons.mp hx with rfl | hx
      · exact Nat.le_refl _
      · exact Nat.le_of_lt (hs.1 x hx)
    · next hc =>
      obtain ⟨⟨k', i'⟩, h1, h2⟩ := Option.map_eq_some_iff.mp h
      cases h2
      obtain ⟨q', e1, e2, e3⟩ := ih hs.2 h1
      refine ⟨q', by simpa using e1, e2, ?_⟩
      intro x hx hx'
      rcases List.mem_cons.mp hx with rfl | hx
      · exact absurd hx' hc
      · exact e3 x hx hx'

/-- The vector agrees with the history; `call`: a callback is running, its request not yet erased. -/
structure VecInv (corr : Q → R → Bool) (vec : List (Nat × Q)) (next : Nat) (hist : List (Ev Q R)) (call : Option Nat) : Prop where
  sorted : vec.Pairwise (fun a b => a.1 < b.1)
  mem : ∀ i q, (i, q) ∈ vec ↔ Ev.request i q ∈ hist ∧ (¬ Answered hist i ∨ call = some i)
  lt : ∀ i q, Ev.request i q ∈ hist → i < next
  ans : ∀ i, Answered hist i → i < next
  cnt : next = (hist.filter (fun e => match e with | .request _ _ => true | _ => false)).length
  called : ∀ i, call = some i → Answered hist i
  right : Right corr hist
  once : (calls hist).Nodup

theorem answered_cons_request {h : List (Ev Q R)} {i j : Nat} {q : Q} : Answered (.request j q :: h) i ↔ Answered h i := by
  simp [Answered]

theorem answered_cons_none {h : List (Ev Q R)} {i : Nat} {p : R} : Answered (.reply p none :: h) i ↔ Answered h i := by
  simp [Answered]

theorem answered_cons_some {h : List (Ev Q R)} {i j : Nat} {p : R} : Answered (.reply p (some j) :: h) i ↔ i = j ∨ Answered h i := by
  simp only [Answered, List.mem_cons, Ev.reply.injEq, Option.some.injEq]
  constructor
  · rintro ⟨p', ⟨-, h⟩ | h⟩
    · exact .inl h
    · exact .inr ⟨p', h⟩
  · rintro (h | ⟨p', h⟩)
    · exact ⟨p, .inl ⟨rfl, h⟩⟩
    · exact ⟨p', .inr h⟩

theorem mem_calls {h : List (Ev Q R)} {i : Nat} : i ∈ calls h ↔ Answered h i := by
  simp only [calls, List.mem_filterMap, Answered]
  constructor
  · rintro ⟨e, he, h'⟩
    cases e with
    | request j q => cases h'
    | reply p dst => simp only at h'; subst h'; exact ⟨p, he⟩
  · rintro ⟨p, hp⟩; exact ⟨_, hp, rfl⟩

theorem VecInv.init (corr : Q → R → Bool) : VecInv corr [] 0 [] none := by
  constructor <;> simp [Answered, Right, calls]

theorem VecInv.request {corr : Q → R → Bool} {vec : List (Nat × Q)} {next : Nat} {hist : List (Ev Q R)} (h : VecInv corr vec next hist none) (q : Q) :
    VecInv corr (vec ++ [(next, q)]) (next + 1) (.request next q :: hist) none := by
  refine ⟨?_, ?_, ?_, ?_, ?_, by simp, ⟨h.cnt, h.right⟩, h.once⟩
  · rw [List.pairwise_append]
    refine ⟨h.sorted, by simp, ?_⟩
    rintro ⟨i, q'⟩ ha b hb
    simp only [List.mem_singleton] at hb
    subst hb
    exact h.lt i q' ((h.mem i q').mp ha).1
  · intro i q'
    simp only [List.mem_append, List.mem_cons, List.not_mem_nil, or_false, h.mem, answered_cons_request, List.mem_cons, Prod.mk.injEq, Ev.request.injEq]
    constructor
    · rintro (⟨h1, h2⟩ | ⟨rfl, rfl⟩)
      · exact ⟨.inr h1, h2⟩
      · refine ⟨.inl ⟨rfl, rfl⟩, .inl ?_⟩
        intro ha
        exact absurd (h.ans _ ha) (Nat.lt_irrefl _)
    · rintro ⟨⟨rfl, rfl⟩ | h1, h2⟩
      · exact .inr ⟨rfl, rfl⟩
      · exact .inl ⟨h1, h2⟩
  · intro i q' hi
    simp only [List.mem_cons, Ev.request.injEq] at hi
    rcases hi with ⟨rfl, _⟩ | hi
    · omega
    · have := h.lt i q' hi; omega
  · intro i hi
    have := h.ans i (answered_cons_request.mp hi); omega
  · simp [← h.cnt]

theorem VecInv.waiting {corr : Q → R → Bool} {vec : List (Nat × Q)} {next : Nat} {hist : List (Ev Q R)} (h : VecInv corr vec next hist none)
    (i : Nat) (q : Q) : Waiting hist i q ↔ (i, q) ∈ vec := by
  simp [h.mem, Waiting]

theorem VecInv.unmatched {corr : Q → R → Bool} {vec : List (Nat × Q)} {next : Nat} {hist : List (Ev Q R)} (h : VecInv corr vec next hist none) {p : R}
    (hf : firstMatch corr p vec = none) : VecInv corr vec next (.reply p none :: hist) none := by
  refine ⟨h.sorted, ?_, ?_, ?_, by simpa using h.cnt, by simp, ⟨?_, h.right⟩, h.once⟩
  · intro i q; rw [h.mem, answered_cons_none]; simp
  · intro i q hi; exact h.lt i q (by simpa using hi)
  · intro i hi; exact h.ans i (answered_cons_none.mp hi)
  · intro i q hw
    exact firstMatch_none hf (i, q) ((h.waiting i q).mp hw)

theorem VecInv.matched {corr : Q → R → Bool} {vec : List (Nat × Q)} {next : Nat} {hist : List (Ev Q R)} (h : VecInv corr vec next hist none) {p : R}
    {k i : Nat} (hf : firstMatch corr p vec = some (k, i)) :
    VecInv corr vec next (.reply p (some i) :: hist) (some i) ∧ ∃ q, vec[k]? = some (i, q) := by
  obtain ⟨q, h1, h2, h3⟩ := firstMatch_some h.sorted hf
  have hm : (i, q) ∈ vec := List.mem_of_getElem? h1
  have hw := (h.waiting i q).mpr hm
  refine ⟨⟨h.sorted, ?_, ?_, ?_, by simpa using h.cnt, ?_, ⟨⟨⟨q, hw, h2⟩, ?_⟩, h.right⟩, ?_⟩, q, h1⟩
  · intro j q'
    rw [h.mem, answered_cons_some]
    simp only [List.mem_cons, reduceCtorEq, or_false, false_or, Option.some.injEq]
    constructor
    · rintro ⟨a, b⟩
      refine ⟨a, ?_⟩
      by_cases hj : i = j
      · exact .inr hj
      · exact .inl (by rintro (c | c); exact hj c.symm; exact b c)
    · rintro ⟨a, b | b⟩
      · exact ⟨a, fun c => b (.inr c)⟩
      · subst b; exact ⟨a, hw.2⟩
  · intro j q' hj; exact h.lt j q' (by simpa using hj)
  · intro j hj
    rcases answered_cons_some.mp hj with rfl | hj
    · exact h.lt _ q hw.1
    · exact h.ans j hj
  · intro j hj; cases hj; exact ⟨p, List.mem_cons_self ..⟩
  · intro j q' hj hc
    exact h3 (j, q') ((h.waiting j q').mp hj) hc
  · have : calls (Ev.reply (Q := Q) p (some i) :: hist) = i :: calls hist := rfl
    rw [this, List.nodup_cons]
    exact ⟨fun hc => hw.2 (mem_calls.mp hc), h.once⟩

theorem VecInv.erase {corr : Q → R → Bool} {vec : List (Nat × Q)} {next : Nat} {hist : List (Ev Q R)} {k i : Nat} {q : Q}
    (h : VecInv corr vec next hist (some i)) (hk : vec[k]? = some (i, q)) : VecInv corr (vec.eraseIdx k) next hist none := by
  refine ⟨h.sorted.sublist (List.eraseIdx_sublist ..), ?_, h.lt, h.ans, h.cnt, by simp, h.right, h.once⟩
  intro j q'
  have hinj : ∀ (m : Nat) (x : Nat × Q), vec[m]? = some x → x.1 = i → m = k := by
    intro m x hm hx
    have hm' := List.getElem?_eq_some_iff.mp hm
    have hk' := List.getElem?_eq_some_iff.mp hk
    obtain ⟨l1, e1⟩ := hm'
    obtain ⟨l2, e2⟩ := hk'
    have hp := List.pairwise_iff_getElem.mp h.sorted
    rcases Nat.lt_trichotomy m k with hlt | heq | hgt
    · have := hp m k l1 l2 hlt; rw [e1, e2] at this; simp only at this; omega
    · exact heq
    · have := hp k m l2 l1 hgt; rw [e1, e2] at this; simp only at this; omega
  have hji : (j, q') ∈ vec.eraseIdx k ↔ (j, q') ∈ vec ∧ j ≠ i := by
    rw [List.mem_eraseIdx_iff_getElem?]
    constructor
    · rintro ⟨m, hm, hm'⟩
      exact ⟨List.mem_of_getElem? hm', fun e => hm (hinj m _ hm' e)⟩
    · rintro ⟨hm, hne⟩
      obtain ⟨m, hm'⟩ := List.getElem?_of_mem hm
      refine ⟨m, ?_, hm'⟩
      rintro rfl
      rw [hk] at hm'
      cases hm'
      exact hne rfl
  rw [hji, h.mem]
  have hi := h.called i rfl
  constructor
  · rintro ⟨⟨a, b | b⟩, c⟩
    · exact ⟨a, .inl b⟩
    · cases b; exact absurd rfl c
  · rintro ⟨a, b | b⟩
    · exact ⟨⟨a, .inl b⟩, by rintro rfl; exact b hi⟩
    · cases b

/-! ### single threaded -/

/-- Neither a request nor a reply comes from inside a callback, and callbacks do not throw. -/
def Plain (s : St Q R) : Act Q R → Prop
  | .request _ _ => ∀ k v st, s.stack ≠ .calling k v :: st
  | .reply _ => ∀ k v st, s.stack ≠ .calling k v :: st
  | .throw => ∀ k v st, s.stack ≠ .calling k v :: st
  | .ret => True

inductive Reach (corr : Q → R → Bool) (P : St Q R → Act Q R → Prop) : St Q R → Prop where
  | init : Reach corr P St.init
  | step {s s' a} : Reach corr P s → P s a → step corr s a = some s' → Reach corr P s'

def AllPub (st : List Frame) : Prop := ∀ f ∈ st, f = .publishing

theorem AllPub.map_inv {st : List Frame} (h : AllPub st) : st.map Frame.invalidate = st := by
  induction st with
  | nil => rfl
  | cons f st ih =>
    rw [List.map_cons, ih (fun g hg => h g (List.mem_cons_of_mem _ hg)), h f (List.mem_cons_self ..)]; rfl

theorem AllPub.map_erased {st : List Frame} (h : AllPub st) (k : Nat) : st.map (Frame.erased k) = st := by
  induction st with
  | nil => rfl
  | cons f st ih =>
    rw [List.map_cons, ih (fun g hg => h g (List.mem_cons_of_mem _ hg)), h f (List.mem_cons_self ..)]; rfl

inductive Inv (corr : Q → R → Bool) (s : St Q R) : Prop where
  | user (h : VecInv corr s.vec s.next s.hist none) (hst : AllPub s.stack) (hu : s.undefined = false)
  | callback (i k : Nat) (q : Q) (st : List Frame) (h : VecInv corr s.vec s.next s.hist (some i)) (hs : s.stack = .calling k true :: st)
      (hst : AllPub st) (hk : s.vec[k]? = some (i, q)) (hu : s.undefined = false)

theorem Inv.step {corr : Q → R → Bool} {s s' : St Q R} {a : Act Q R} (hi : Inv corr s) (hP : Plain s a) (hs : step corr s a = some s') : Inv corr s' := by
  cases hi with
  | user h hst hu =>
    cases a with
    | request q r =>
      simp only [Verif.Callback.step, Option.some.injEq] at hs
      subst hs
      refine .user (h.request q) ?_ hu
      intro f hf
      rcases List.mem_cons.mp hf with rfl | hf
      · rfl
      · rw [hst.map_inv] at hf; simp only [ite_self] at hf; exact hst f hf
    | reply p =>
      simp only [Verif.Callback.step] at hs
      split at hs
      · next hf => cases hs; exact .user (h.unmatched hf) hst hu
      · next k i hf =>
        cases hs
        obtain ⟨h1, q, h2⟩ := h.matched hf
        exact .callback i k q s.stack h1 rfl hst h2 hu
    | ret =>
      simp only [Verif.Callback.step] at hs
      split at hs
      · cases hs
      · next st e => cases hs; exact .user h (fun f hf => hst f (by rw [e]; exact List.mem_cons_of_mem _ hf)) hu
      · next k v st e => have := hst (.calling k v) (by rw [e]; exact List.mem_cons_self ..); cases this
    | throw =>
      simp only [Verif.Callback.step] at hs
      split at hs
      · cases hs
      · next f st e => cases hs; exact .user h (fun f hf => hst f (by rw [e]; exact List.mem_cons_of_mem _ hf)) hu
  | callback i k q st h hstk hst hk hu =>
    cases a with
    | request q r => exact absurd hstk (hP _ _ _)
    | reply p => exact absurd hstk (hP _ _ _)
    | throw => exact absurd hstk (hP _ _ _)
    | ret =>
      simp only [Verif.Callback.step, hstk, if_true, Option.some.injEq] at hs
      subst hs
      exact .user (h.erase hk) (by simp only [hst.map_erased]; exact hst) hu

theorem Reach.inv {corr : Q → R → Bool} {s : St Q R} (h : Reach corr Plain s) : Inv corr s := by
  induction h with
  | init => exact .user (VecInv.init corr) (by simp [AllPub, St.init]) rfl
  | step _ hP hs ih => exact ih.step hP hs

/-! ### with the mutex -/

/-- Callbacks do not throw. -/
def NoThrow (s : MSt Q R) : MAct Q R → Prop
  | .throw t => ∀ k st, s.stack t ≠ .calling k :: st
  | _ => True

inductive MReach (corr : Q → R → Bool) (P : MSt Q R → MAct Q R → Prop) : MSt Q R → Prop where
  | init : MReach corr P MSt.init
  | step {s s' a} : MReach corr P s → P s a → mstep corr s a = some s' → MReach corr P s'

/-- The frames that hold the mutex. -/
def Held : MFrame Q R → Prop
  | .publishing => True
  | .calling _ => True
  | _ => False

/-- A stack: calls waiting for the mutex can only be innermost; below that, at most the holding frame of the owner. -/
inductive StackOk (owner : Option Nat) (t : Nat) : List (MFrame Q R) → Prop where
  | empty (h : owner ≠ some t) : StackOk owner t []
  | want (f : MFrame Q R) (hf : ¬ Held f) (h : owner ≠ some t) : StackOk owner t [f]
  | hold (f : MFrame Q R) (hf : Held f) (h : owner = some t) : StackOk owner t [f]
  | stuck (f g : MFrame Q R) (hf : ¬ Held f) (hg : Held g) (h : owner = some t) : StackOk owner t [f, g]

structure MInv (corr : Q → R → Bool) (s : MSt Q R) : Prop where
  stacks : ∀ t, StackOk s.owner t (s.stack t)
  vec : ∃ call, VecInv corr s.vec s.next s.hist call ∧
    (∀ t k, .calling k ∈ s.stack t → ∃ i q, call = some i ∧ s.vec[k]? = some (i, q)) ∧
    ((∀ t k, .calling k ∉ s.stack t) → call = none)

theorem StackOk.upd_other {owner owner' : Option Nat} {t u : Nat} {l : List (MFrame Q R)} (h : StackOk owner u l) (h1 : owner = some u ↔ owner' = some u) :
    StackOk owner' u l := by
  cases h with
  | empty h => exact .empty (fun e => h (h1.mpr e))
  | want f hf h => exact .want f hf (fun e => h (h1.mpr e))
  | hold f hf h => exact .hold f hf (h1.mp h)
  | stuck f g hf hg h => exact .stuck f g hf hg (h1.mp h)

theorem StackOk.noCalling {owner : Option Nat} {t : Nat} {l : List (MFrame Q R)} (h : StackOk owner t l) (ho : owner ≠ some t) (k : Nat) :
    MFrame.calling k ∉ l := by
  cases h with
  | empty h => simp
  | want f hf h =>
    simp only [List.mem_singleton]
    rintro rfl
    exact hf trivial
  | hold f hf h => exact absurd h ho
  | stuck f g hf hg h => exact absurd h ho

theorem MInv.nocall {corr : Q → R → Bool} {s : MSt Q R} (hi : MInv corr s) (ho : s.owner = none) : VecInv corr s.vec s.next s.hist none := by
  obtain ⟨call, h1, _, h3⟩ := hi.vec
  rw [h3 (fun t k => (hi.stacks t).noCalling (by rw [ho]; simp) k)] at h1
  exact h1

/-- Changing the stack of one thread, and the owner between that thread and nobody. -/
theorem MInv.mk' {corr : Q → R → Bool} {s s' : MSt Q R} (hi : MInv corr s) {t : Nat} {l : List (MFrame Q R)} (h1 : s'.stack = upd s.stack t l)
    (h2 : ∀ u, u ≠ t → (s.owner = some u ↔ s'.owner = some u)) (h3 : StackOk s'.owner t l)
    (hv : ∃ call, VecInv corr s'.vec s'.next s'.hist call ∧
      (∀ k, .calling k ∈ l → ∃ i q, call = some i ∧ s'.vec[k]? = some (i, q)) ∧
      (∀ u, u ≠ t → ∀ k, .calling k ∈ s.stack u → ∃ i q, call = some i ∧ s'.vec[k]? = some (i, q)) ∧
      ((∀ k, .calling k ∉ l) → (∀ u, u ≠ t → ∀ k, .calling k ∉ s.stack u) → call = none)) : MInv corr s' := by
  obtain ⟨call, v1, v2, v3, v4⟩ := hv
  refine ⟨?_, call, v1, ?_, ?_⟩
  · intro u
    rw [h1]
    simp only [upd_apply]
    split
    · next e => subst e; exact h3
    · next hu => exact (hi.stacks u).upd_other (t := t) (h2 u hu)
  · intro u k
    rw [h1]
    simp only [upd_apply]
    split
    · exact v2 k
    · next hu => exact v3 u hu k
  · intro hn
    refine v4 (fun k => ?_) (fun u hu k => ?_)
    · have := hn t k; rw [h1] at this; simpa using this
    · have := hn u k; rw [h1] at this; simpa [upd_apply, hu] using this

theorem MInv.step {corr : Q → R → Bool} {s s' : MSt Q R} {a : MAct Q R} (hi : MInv corr s) (hP : NoThrow s a) (hs : mstep corr s a = some s') :
    MInv corr s' := by
  have nc : ∀ {t : Nat}, (s.owner = some t ∨ s.owner = none) → ∀ u, u ≠ t → ∀ k, MFrame.calling k ∉ s.stack u := by
    intro t ho u hu k
    refine (hi.stacks u).noCalling ?_ k
    rcases ho with ho | ho <;> rw [ho] <;> simp
    exact fun e => hu e.symm
  have push : ∀ (t : Nat) (f : MFrame Q R), ¬ Held f → canCall (s.stack t) = true → s' = { s with stack := upd s.stack t (f :: s.stack t) } → MInv corr s' := by
    intro t f hf hc e
    subst e
    obtain ⟨call, v1, v2, v3⟩ := hi.vec
    have hmem : ∀ k, .calling k ∈ f :: s.stack t ↔ .calling k ∈ s.stack t := by
      intro k
      rw [List.mem_cons]
      constructor
      · rintro (rfl | h)
        · exact absurd trivial hf
        · exact h
      · exact .inr
    refine hi.mk' (t := t) rfl (fun u _ => Iff.rfl) ?_ ⟨call, v1, fun k hk => v2 t k ((hmem k).mp hk), fun u _ k hk => v2 u k hk, ?_⟩
    · have hst := hi.stacks t
      generalize s.stack t = l at hst hc
      cases hst with
      | empty h => exact .want f hf h
      | want g hg h => cases g <;> first | exact absurd trivial hg | cases hc
      | hold g hg h => exact .stuck f g hf hg h
      | stuck g g' hg hg' h => cases g <;> first | exact absurd trivial hg | cases hc
    · intro a b
      refine v3 (fun u k => ?_)
      by_cases hu : u = t
      · subst hu; exact fun h => a k ((hmem k).mpr h)
      · exact b u hu k
  cases a with
  | callReq t q =>
    simp only [mstep] at hs
    split at hs
    · next hc => exact push t (.wantReq q) (fun h => h) hc (by simpa using hs.symm)
    · cases hs
  | callReply t p =>
    simp only [mstep] at hs
    split at hs
    · next hc => exact push t (.wantReply p) (fun h => h) hc (by simpa using hs.symm)
    · cases hs
  | lock t =>
    simp only [mstep] at hs
    split at hs
    · next q st ho hstk =>
      cases hs
      have hv := hi.nocall ho
      have hst := hi.stacks t
      rw [hstk, ho] at hst
      cases hst with
      | hold f hf h => cases h
      | stuck f g hf hg h => cases h
      | want f hf h =>
        refine hi.mk' (t := t) rfl ?_ (.hold _ trivial rfl) ⟨none, hv.request q, ?_, ?_, fun _ _ => rfl⟩
        · intro u hu; rw [ho]; simp; exact fun e => hu e.symm
        · intro k hk; simp at hk
        · intro u hu k hk; exact absurd hk (nc (.inr ho) u hu k)
    · next p st ho hstk =>
      have hv := hi.nocall ho
      have hst := hi.stacks t
      rw [hstk, ho] at hst
      split at hs
      · next hf =>
        cases hs
        cases hst with
        | hold f hf h => cases h
        | stuck f g hf hg h => cases h
        | want f hf' h =>
          refine hi.mk' (t := t) rfl (fun u _ => Iff.rfl) (.empty (by rw [ho]; simp)) ⟨none, hv.unmatched hf, ?_, ?_, fun _ _ => rfl⟩
          · intro k hk; simp at hk
          · intro u hu k hk; exact absurd hk (nc (.inr ho) u hu k)
      · next k i hf =>
        cases hs
        obtain ⟨g1, q, g2⟩ := hv.matched hf
        cases hst with
        | hold f hf h => cases h
        | stuck f g hf hg h => cases h
        | want f hf' h =>
          refine hi.mk' (t := t) rfl ?_ (.hold _ trivial rfl) ⟨some i, g1, ?_, ?_, ?_⟩
          · intro u hu; rw [ho]; simp; exact fun e => hu e.symm
          · intro k' hk; simp at hk; subst hk; exact ⟨i, q, rfl, g2⟩
          · intro u hu k hk; exact absurd hk (nc (.inr ho) u hu k)
          · intro h1 _; exact absurd (List.mem_cons_self ..) (h1 k)
    · cases hs
  | ret t =>
    simp only [mstep] at hs
    have hst := hi.stacks t
    split at hs
    · next st hstk =>
      cases hs
      rw [hstk] at hst
      cases hst with
      | want f hf h => exact absurd trivial hf
      | stuck f g hf hg h => exact absurd trivial hf
      | hold f hf h =>
        obtain ⟨call, v1, v2, v3⟩ := hi.vec
        have hc : call = none := v3 (fun u k => by
          by_cases hu : u = t
          · subst hu; rw [hstk]; simp
          · exact nc (.inl h) u hu k)
        subst hc
        refine hi.mk' (t := t) rfl ?_ (.empty (by simp)) ⟨none, v1, ?_, ?_, fun _ _ => rfl⟩
        · intro u hu; rw [h]; simp; exact fun e => hu e.symm
        · intro k hk; simp at hk
        · intro u hu k hk; exact absurd hk (nc (.inl h) u hu k)
    · next k st hstk =>
      cases hs
      obtain ⟨call, v1, v2, v3⟩ := hi.vec
      obtain ⟨i, q, rfl, hk⟩ := v2 t k (by rw [hstk]; exact List.mem_cons_self ..)
      rw [hstk] at hst
      cases hst with
      | want f hf h => exact absurd trivial hf
      | stuck f g hf hg h => exact absurd trivial hf
      | hold f hf h =>
        refine hi.mk' (t := t) rfl ?_ (.empty (by simp)) ⟨none, v1.erase hk, ?_, ?_, fun _ _ => rfl⟩
        · intro u hu; rw [h]; simp; exact fun e => hu e.symm
        · intro k hk; simp at hk
        · intro u hu k hk; exact absurd hk (nc (.inl h) u hu k)
    · cases hs
  | throw t =>
    simp only [mstep] at hs
    have hst := hi.stacks t
    split at hs
    · next st hstk =>
      cases hs
      rw [hstk] at hst
      cases hst with
      | want f hf h => exact absurd trivial hf
      | stuck f g hf hg h => exact absurd trivial hf
      | hold f hf h =>
        obtain ⟨call, v1, v2, v3⟩ := hi.vec
        have hc : call = none := v3 (fun u k => by
          by_cases hu : u = t
          · subst hu; rw [hstk]; simp
          · exact nc (.inl h) u hu k)
        subst hc
        refine hi.mk' (t := t) rfl ?_ (.empty (by simp)) ⟨none, v1, ?_, ?_, fun _ _ => rfl⟩
        · intro u hu; rw [h]; simp; exact fun e => hu e.symm
        · intro k hk; simp at hk
        · intro u hu k hk; exact absurd hk (nc (.inl h) u hu k)
    · next k st hstk => exact absurd hstk (hP _ _)
    · cases hs

theorem MReach.inv {corr : Q → R → Bool} {s : MSt Q R} (h : MReach corr NoThrow s) : MInv corr s := by
  induction h with
  | init =>
    refine ⟨fun t => .empty (by simp [MSt.init]), none, VecInv.init corr, by simp [MSt.init], fun _ => rfl⟩
  | step _ hP hs ih => exact ih.step hP hs

/-- The mutex part of the invariant, in executions with exceptions of any kind. -/
theorem stacks_step {corr : Q → R → Bool} {s s' : MSt Q R} {a : MAct Q R} (hi : ∀ t, StackOk s.owner t (s.stack t)) (hs : mstep corr s a = some s') :
    ∀ t, StackOk s'.owner t (s'.stack t) := by
  have mk : ∀ (t : Nat) (l : List (MFrame Q R)), s'.stack = upd s.stack t l → (∀ u, u ≠ t → (s.owner = some u ↔ s'.owner = some u)) →
      StackOk s'.owner t l → ∀ t, StackOk s'.owner t (s'.stack t) := by
    intro t l h1 h2 h3 u
    rw [h1]
    simp only [upd_apply]
    split
    · next e => subst e; exact h3
    · next hu => exact (hi u).upd_other (t := t) (h2 u hu)
  have push : ∀ (t : Nat) (f : MFrame Q R), ¬ Held f → canCall (s.stack t) = true → s' = { s with stack := upd s.stack t (f :: s.stack t) } →
      ∀ t, StackOk s'.owner t (s'.stack t) := by
    intro t f hf hc e
    subst e
    refine mk t _ rfl (fun u _ => Iff.rfl) ?_
    have hst := hi t
    show StackOk s.owner t (f :: s.stack t)
    generalize s.stack t = l at hst hc
    cases hst with
    | empty h => exact .want f hf h
    | want g hg h => cases g <;> first | exact absurd trivial hg | cases hc
    | hold g hg h => exact .stuck f g hf hg h
    | stuck g g' hg hg' h => cases g <;> first | exact absurd trivial hg | cases hc
  have pop : ∀ (t : Nat) (f : MFrame Q R) (st : List (MFrame Q R)), s.stack t = f :: st → Held f → s'.owner = none → s'.stack = upd s.stack t st →
      ∀ t, StackOk s'.owner t (s'.stack t) := by
    intro t f st hstk hf ho hst'
    have hst := hi t
    rw [hstk] at hst
    cases hst with
    | want f hf' h => exact absurd hf hf'
    | stuck f g hf' hg h => exact absurd hf hf'
    | hold f hf h =>
      refine mk t _ hst' ?_ (.empty (by rw [ho]; simp))
      intro u hu; rw [h, ho]; simp; exact fun e => hu e.symm
  cases a with
  | callReq t q =>
    simp only [mstep] at hs
    split at hs
    · next hc => exact push t (.wantReq q) (fun h => h) hc (by simpa using hs.symm)
    · cases hs
  | callReply t p =>
    simp only [mstep] at hs
    split at hs
    · next hc => exact push t (.wantReply p) (fun h => h) hc (by simpa using hs.symm)
    · cases hs
  | lock t =>
    have hst := hi t
    simp only [mstep] at hs
    split at hs
    · next q st ho hstk =>
      cases hs
      rw [hstk, ho] at hst
      cases hst with
      | hold f hf h => cases h
      | stuck f g hf hg h => cases h
      | want f hf h =>
        refine mk t _ rfl ?_ (.hold _ trivial rfl)
        intro u hu; rw [ho]; simp; exact fun e => hu e.symm
    · next p st ho hstk =>
      rw [hstk, ho] at hst
      cases hst with
      | hold f hf h => cases h
      | stuck f g hf hg h => cases h
      | want f hf h =>
        split at hs
        · cases hs
          exact mk t _ rfl (fun u _ => Iff.rfl) (.empty (by rw [ho]; simp))
        · cases hs
          refine mk t _ rfl ?_ (.hold _ trivial rfl)
          intro u hu; rw [ho]; simp; exact fun e => hu e.symm
    · cases hs
  | ret t =>
    simp only [mstep] at hs
    split at hs
    · next st hstk => cases hs; exact pop t _ st hstk trivial rfl rfl
    · next k st hstk => cases hs; exact pop t _ st hstk trivial rfl rfl
    · cases hs
  | throw t =>
    simp only [mstep] at hs
    split at hs
    · next st hstk => cases hs; exact pop t _ st hstk trivial rfl rfl
    · next k st hstk => cases hs; exact pop t _ st hstk trivial rfl rfl
    · cases hs

theorem MReach.stacks {corr : Q → R → Bool} {P : MSt Q R → MAct Q R → Prop} {s : MSt Q R} (h : MReach corr P s) : ∀ t, StackOk s.owner t (s.stack t) := by
  induction h with
  | init => exact fun t => .empty (by simp [MSt.init])
  | step _ _ hs ih => exact stacks_step ih hs

end Verif.Callback
