import Verif.Lemmas.CallbackNested

/-!
Properties of the single threaded callback handler used from inside its own callbacks (C43).  `Reach corr (Careful corr)`: every sequence of requests
and replies, to any depth of nesting, in which callbacks respect the three conditions of `Careful`.  Each condition is needed: the findings
`C43_violation_request_in_callback`, `C43_violation_throwing_callback` and, in general, `C43_nested_reply_to_earlier_undefined`.
-/

namespace Verif.Callback
open Verif

variable {Q R : Type}

/-- **C43**, callbacks that use the handler: if the requests they make find room in the vector, the replies they cause correlate with none of the requests up
to those being answered, and they do not throw, then every reply was given to the callback of the oldest waiting request that correlates, to nobody
exactly if there is none, no callback was called twice and no invalid iterator was used.  Missing: callbacks that do not respect these conditions,
where it fails (`C43_violation_*`, `C43_nested_reply_to_earlier_undefined`). -/
theorem C43_nested_callbacks_partial {corr : Q → R → Bool} {s : St Q R} (h : Reach corr (Careful corr) s) :
    Right corr s.hist ∧ (calls s.hist).Nodup ∧ s.undefined = false :=
  ⟨h.ninv.right, h.ninv.once, h.ninv.fine⟩

/-- **C43**: in these executions the handler keeps the requests that wait for a reply and those being answered, in the order they were made, and nothing
else. -/
theorem C43_nested_keeps_requests {corr : Q → R → Bool} {s : St Q R} (h : Reach corr (Careful corr) s) :
    s.vec.Pairwise (fun a b => a.1 < b.1) ∧
    (∀ i q, (i, q) ∈ s.vec ↔ Waiting s.hist i q ∨ (Answered s.hist i ∧ ∃ k, Frame.calling k true ∈ s.stack ∧ s.vec[k]? = some (i, q))) := by
  have hn := h.ninv
  refine ⟨hn.sorted, fun i q => ?_⟩
  constructor
  · intro hm
    obtain ⟨a, b⟩ := (hn.mem i q).mp hm
    by_cases ha : Answered s.hist i
    · rcases b with b | ⟨k, v, b, c⟩
      · exact absurd ha b
      · have := (hn.inside k v b).1; subst this
        exact .inr ⟨ha, k, b, c⟩
    · exact .inl ⟨a, ha⟩
  · rintro (hw | ⟨_, k, _, c⟩)
    · exact (hn.mem i q).mpr ⟨hw.1, .inl hw.2⟩
    · exact List.mem_of_getElem? c

/-- **C43**: a callback that returns removes its own request and no other: the request it answered, whatever was added in the meantime. -/
theorem C43_nested_return_removes_own {corr : Q → R → Bool} {s : St Q R} (h : Reach corr (Careful corr) s) {k : Nat} {v : Bool} {st : List Frame}
    (hst : s.stack = .calling k v :: st) : ∃ i q s', s.vec[k]? = some (i, q) ∧ Answered s.hist i ∧ step corr s .ret = some s' ∧ s'.stack = st ∧
      s'.undefined = false ∧ ∀ j q', (j, q') ∈ s'.vec ↔ (j, q') ∈ s.vec ∧ j ≠ i := by
  have hn := h.ninv
  obtain ⟨hv, hk⟩ := hn.inside k v (by rw [hst]; exact List.mem_cons_self ..)
  subst hv
  have hd := hn.deeper
  rw [hst, List.pairwise_cons] at hd
  have hlt : ∀ k' v, Frame.calling k' v ∈ st → k' < k := fun k' v hk' => hd.1 _ hk' k true k' v rfl rfl
  obtain ⟨⟨i, q⟩, hg⟩ : ∃ x, s.vec[k]? = some x := ⟨_, List.getElem?_eq_getElem hk⟩
  refine ⟨i, q, { s with vec := s.vec.eraseIdx k, stack := st.map (Frame.erased k) }, hg, hn.called i q ⟨k, true, by rw [hst]; exact List.mem_cons_self .., hg⟩,
    by simp [step, hst], map_erased hlt, hn.fine, ?_⟩
  intro j q'
  show (j, q') ∈ s.vec.eraseIdx k ↔ _
  rw [List.mem_eraseIdx_iff_getElem?]
  constructor
  · rintro ⟨m, hm, hm'⟩
    exact ⟨List.mem_of_getElem? hm', fun e => hm (pos_unique hn.sorted hm' hg e)⟩
  · rintro ⟨hm, hne⟩
    obtain ⟨m, hm'⟩ := List.getElem?_of_mem hm
    refine ⟨m, ?_, hm'⟩
    rintro rfl
    rw [hg] at hm'
    cases hm'
    exact hne rfl

/-- The executions of `C43_replies_matched_partial` are among these. -/
theorem C43_plain_is_careful {corr : Q → R → Bool} {s : St Q R} (h : Reach corr Plain s) : Reach corr (Careful corr) s := by
  induction h with
  | init => exact .init
  | @step s s' a hr hP hs ih =>
    refine .step ih ?_ hs
    have hnone : (∀ k v st, s.stack ≠ .calling k v :: st) → ∀ k v, Frame.calling k v ∉ s.stack := by
      intro hne k v hk
      cases hr.inv with
      | user _ hst _ => have := hst _ hk; cases this
      | callback _ k _ st _ hs _ _ _ => exact hne _ _ _ hs
    cases a with
    | request q r => rintro ⟨k, v, hk⟩; exact absurd hk (hnone hP k v)
    | reply p => intro k v hk; exact absurd hk (hnone hP k v)
    | ret => trivial
    | throw => exact hP

/-- Finding against **C43**, in general: a reply that arrives inside a callback and correlates with a request up to the one being answered: when both callbacks
have returned an invalid iterator was used. -/
theorem C43_nested_reply_to_earlier_undefined {corr : Q → R → Bool} {s : St Q R} {k k' i : Nat} {v : Bool} {st : List Frame}
    (hst : s.stack = .calling k v :: st) {p : R} (hf : firstMatch corr p s.vec = some (k', i)) (hle : k' ≤ k) :
    ∃ s', run corr s [.reply p, .ret, .ret] = some s' ∧ s'.undefined = true := by
  have hv : (v && decide (k < k')) = false := by simp; intro _; omega
  simp only [run, step, hf, hst, if_true, List.map_cons, Frame.erased, hv]
  exact ⟨_, rfl, rfl⟩

/-- The same for a callback that makes a request for which the vector moves. -/
theorem C43_nested_request_moves_undefined {corr : Q → R → Bool} {s : St Q R} {k : Nat} {v : Bool} {st : List Frame}
    (hst : s.stack = .calling k v :: st) (q : Q) : ∃ s', run corr s [.request q true, .ret, .ret] = some s' ∧ s'.undefined = true := by
  simp only [run, step, hst, if_true, List.map_cons, Frame.invalidate]
  exact ⟨_, rfl, rfl⟩

/-- The hypotheses are met: the callback of request 0 makes request 2, whose reply arrives inside `publish`, and in that callback another request is made;
request 1 is answered last. -/
theorem C43_nested_example : ∃ s : St Nat Nat, Reach (fun q p => q == p) (Careful (fun q p => q == p)) s ∧
    s.hist.reverse = [.request 0 5, .request 1 6, .reply 5 (some 0), .request 2 8, .reply 8 (some 2), .request 3 9, .reply 6 (some 1)] ∧ s.vec = [(3, 9)] := by
  refine ⟨⟨[(3, 9)], 4, [], [.reply 6 (some 1), .request 3 9, .reply 8 (some 2), .request 2 8, .reply 5 (some 0), .request 1 6, .request 0 5], false⟩, ?_, rfl, rfl⟩
  refine .step (a := .ret) (s := ⟨[(1, 6), (3, 9)], 4, [.calling 0 true], _, false⟩) ?_ trivial rfl
  refine .step (a := .reply 6) (s := ⟨[(1, 6), (3, 9)], 4, [], _, false⟩) ?_ (by intro k v h; cases h) rfl
  refine .step (a := .ret) (s := ⟨[(0, 5), (1, 6), (3, 9)], 4, [.calling 0 true], _, false⟩) ?_ trivial rfl
  refine .step (a := .ret) (s := ⟨[(0, 5), (1, 6), (3, 9)], 4, [.publishing, .calling 0 true], _, false⟩) ?_ trivial rfl
  refine .step (a := .ret) (s := ⟨[(0, 5), (1, 6), (2, 8), (3, 9)], 4, [.calling 2 true, .publishing, .calling 0 true], _, false⟩) ?_ trivial rfl
  refine .step (a := .ret) (s := ⟨[(0, 5), (1, 6), (2, 8), (3, 9)], 4, [.publishing, .calling 2 true, .publishing, .calling 0 true], _, false⟩) ?_ trivial rfl
  refine .step (a := .request 9 false) (s := ⟨[(0, 5), (1, 6), (2, 8)], 3, [.calling 2 true, .publishing, .calling 0 true], _, false⟩) ?_ (fun _ => rfl) rfl
  refine .step (a := .reply 8) (s := ⟨[(0, 5), (1, 6), (2, 8)], 3, [.publishing, .calling 0 true], _, false⟩) ?_ ?_ rfl
  · refine .step (a := .request 8 false) (s := ⟨[(0, 5), (1, 6)], 2, [.calling 0 true], _, false⟩) ?_ (fun _ => rfl) rfl
    refine .step (a := .reply 5) (s := ⟨[(0, 5), (1, 6)], 2, [], _, false⟩) ?_ (by intro k v h; cases h) rfl
    refine .step (a := .ret) (s := ⟨[(0, 5), (1, 6)], 2, [.publishing], _, false⟩) ?_ trivial rfl
    refine .step (a := .request 6 false) (s := ⟨[(0, 5)], 1, [], _, false⟩) ?_ (by rintro ⟨k, v, h⟩; cases h) rfl
    refine .step (a := .ret) (s := ⟨[(0, 5)], 1, [.publishing], _, false⟩) ?_ trivial rfl
    exact .step (a := .request 5 true) .init (by rintro ⟨k, v, h⟩; cases h) rfl
  · intro k v hk m x hm hx
    simp only [List.mem_cons, reduceCtorEq, Frame.calling.injEq, List.not_mem_nil, or_false, false_or] at hk
    obtain ⟨rfl, rfl⟩ := hk
    obtain rfl : m = 0 := by omega
    cases hx
    rfl

/-- Finding: inside the callback of request 1 a reply to request 0 arrives (both were made by the user beforehand). -/
theorem C43_violation_reply_to_earlier :
    (run (fun q p : Nat => q == p) St.init [.request 5 true, .ret, .request 6 true, .ret, .reply 6, .reply 5, .ret, .ret]).map (fun s => (calls s.hist, s.vec, s.undefined)) =
      some ([0, 1], [(1, 6)], true) := by decide +kernel

end Verif.Callback
