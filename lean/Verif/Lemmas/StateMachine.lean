import Verif.Spec.StateMachine
import Mathlib.Data.List.Induction

namespace Verif.Fsm
open Verif

theorem buildTable_append (l : List CfgState) (st : CfgState) :
    buildTable (l ++ [st]) = upd (buildTable l) st.id (some st.transitions) := by
  simp [buildTable, List.foldl_append]

theorem buildTable_decl (l : List CfgState) (id : String) (q : String) :
    buildTable l q = (Spec.decl ⟨id, l⟩ q).map (·.transitions) := by
  induction l using List.reverseRecOn with
  | nil => rfl
  | append_singleton l st ih =>
    rw [buildTable_append, upd_apply]
    simp only [Spec.decl, List.filter_append] at ih ⊢
    by_cases h : q = st.id
    · subst h; simp
    · have : ¬ st.id = q := fun e => h e.symm
      simp [h, this, ih]

theorem firstMatch_find (e : String) (l : List Tr) : firstMatch e l = (l.find? (fun t => t.event = e)).map (·.dest) := by
  induction l with
  | nil => rfl
  | cons t ts ih =>
    simp only [firstMatch, List.find?_cons]
    by_cases h : e = t.event
    · simp [h]
    · have : ¬ t.event = e := fun x => h x.symm
      simp [h, this, ih]

theorem delta_eq (c : Cfg) (q e : String) : Spec.delta c q e = (buildTable c.states q).bind (firstMatch e) := by
  rw [buildTable_decl c.states c.id]
  simp only [Spec.delta]
  cases h : Spec.decl ⟨c.id, c.states⟩ q with
  | none =>
    have : Spec.decl c q = none := h
    simp [this]
  | some st =>
    have : Spec.decl c q = some st := h
    simp [this, firstMatch_find]

theorem initialOf_eq (c : Cfg) : initialOf c.states = Spec.initial c := by
  have aux : ∀ (l : List CfgState) (i : String), i ≠ "" → l.foldl (fun i st => if i = "" then st.id else i) i = i := by
    intro l
    induction l with
    | nil => intros; rfl
    | cons st l ih => intro i h; simp only [List.foldl_cons, if_neg h]; exact ih i h
  simp only [initialOf, Spec.initial]
  induction c.states with
  | nil => rfl
  | cons st l ih =>
    simp only [List.foldl_cons, if_true, List.find?_cons]
    by_cases h : st.id = ""
    · simp [h, ih]
    · simp only [aux l st.id h]; simp [h]

/-- The static part of the machine. -/
theorem step_static (m : M) (op : Op) : (step m op).1.id = m.id ∧ (step m op).1.table = m.table ∧ (step m op).1.initial = m.initial := by
  cases op <;> simp [step, update, enqueue] <;> (repeat' split) <;> simp

theorem consume_spec (trs : List Tr) (cur : String) (q : List String) :
    ((∀ e ∈ q, firstMatch e trs = none) ∧ consume trs cur q = (cur, [], false)) ∨
    ∃ pre e rest d, q = pre ++ e :: rest ∧ (∀ e ∈ pre, firstMatch e trs = none) ∧ firstMatch e trs = some d ∧
      consume trs cur q = (d, rest, true) := by
  induction q with
  | nil => left; simp [consume]
  | cons x q ih =>
    simp only [consume]
    cases h : firstMatch x trs with
    | some d => right; exact ⟨[], x, q, d, rfl, by simp, h, rfl⟩
    | none =>
      rcases ih with ⟨h1, h2⟩ | ⟨pre, e, rest, d, h1, h2, h3, h4⟩
      · left; exact ⟨by simpa [h] using h1, h2⟩
      · right; exact ⟨x :: pre, e, rest, d, by simp [h1], by simpa [h] using h2, h3, h4⟩

theorem exec_append (c : Cfg) (q : String) (a b : List String) : Spec.exec c q (a ++ b) = Spec.exec c (Spec.exec c q a) b := by
  induction a generalizing q with
  | nil => rfl
  | cons e a ih => exact ih _

theorem exec_drop (c : Cfg) (q : String) (a : List String) (h : ∀ e ∈ a, Spec.delta c q e = none) : Spec.exec c q a = q := by
  induction a with
  | nil => rfl
  | cons e a ih =>
    simp only [Spec.exec, h e (by simp), Option.getD_none]
    exact ih (fun e he => h e (by simp [he]))

/-- One `update`: the events taken from the queue and their effect. -/
theorem update_spec (c : Cfg) (m : M) (ht : m.table = buildTable c.states) :
    ∃ done, m.queue = done ++ (update m).1.queue ∧ (update m).1.cur = Spec.exec c m.cur done ∧ (update m).1.started = m.started := by
  simp only [update]
  split
  · next hs =>
    split
    · next trs htr =>
      have hd : ∀ e, Spec.delta c m.cur e = firstMatch e trs := by
        intro e; rw [delta_eq, ← ht, htr]; rfl
      rcases consume_spec trs m.cur m.queue with ⟨h1, h2⟩ | ⟨pre, e, rest, d, h1, h2, h3, h4⟩
      · rw [h2]
        refine ⟨m.queue, by simp, ?_, rfl⟩
        rw [exec_drop]
        intro e he; rw [hd, h1 e he]
      · rw [h4]
        refine ⟨pre ++ [e], by simp [h1], ?_, rfl⟩
        rw [exec_append, exec_drop c m.cur pre (fun x hx => by rw [hd, h2 x hx])]
        simp [Spec.exec, hd, h3]
    · exact ⟨[], rfl, rfl, rfl⟩
  · exact ⟨[], rfl, rfl, rfl⟩

theorem runOps_append (m : M) (a b : List Op) :
    runOps m (a ++ b) = ((runOps (runOps m a).1 b).1, (runOps m a).2 ++ (runOps (runOps m a).1 b).2) := by
  induction a generalizing m with
  | nil => simp [runOps]
  | cons op a ih => simp [runOps, ih]

theorem runOps_static (m : M) (ops : List Op) :
    (runOps m ops).1.id = m.id ∧ (runOps m ops).1.table = m.table ∧ (runOps m ops).1.initial = m.initial := by
  induction ops generalizing m with
  | nil => simp [runOps]
  | cons op ops ih =>
    obtain ⟨h1, h2, h3⟩ := step_static m op
    obtain ⟨g1, g2, g3⟩ := ih (step m op).1
    simp only [runOps]
    exact ⟨g1.trans h1, g2.trans h2, g3.trans h3⟩

theorem follows (c : Cfg) (ops : List Op) (m : M) (ht : m.table = buildTable c.states) (old done : List String)
    (hc : m.cur = Spec.exec c m.initial done) :
    ∃ old' done', old ++ done ++ m.queue ++ Spec.accepted m.started ops = old' ++ done' ++ (runOps m ops).1.queue ∧
      (runOps m ops).1.cur = Spec.exec c m.initial done' ∧ (.reset ∉ ops → old' = old) := by
  induction ops generalizing m old done with
  | nil => exact ⟨old, done, by simp [Spec.accepted, runOps], by simpa [runOps] using hc, fun _ => rfl⟩
  | cons op ops ih =>
    obtain ⟨s1, s2, s3⟩ := step_static m op
    have ht' := s2.trans ht
    simp only [runOps]
    cases op with
    | start =>
      obtain ⟨o, d, h1, h2, h3⟩ := ih (step m .start).1 ht' old done hc
      exact ⟨o, d, h1, h2, fun h => h3 (fun x => h (by simp [x]))⟩
    | stop =>
      obtain ⟨o, d, h1, h2, h3⟩ := ih (step m .stop).1 ht' old done hc
      exact ⟨o, d, h1, h2, fun h => h3 (fun x => h (by simp [x]))⟩
    | reset =>
      obtain ⟨o, d, h1, h2, h3⟩ := ih (step m .reset).1 ht' (old ++ done) [] rfl
      exact ⟨o, d, by simpa [Spec.accepted, step] using h1, h2, fun h => absurd (by simp) h⟩
    | update =>
      obtain ⟨dn, e1, e2, e3⟩ := update_spec c m ht
      obtain ⟨o, d, h1, h2, h3⟩ := ih (step m .update).1 ht' old (done ++ dn) (by rw [s3]; simp only [step]; rw [e2, hc, exec_append])
      refine ⟨o, d, ?_, by rw [h2, s3], fun h => h3 (fun x => h (by simp [x]))⟩
      rw [← h1]
      simp only [step, e3, Spec.accepted]
      rw [e1]
      simp
    | enqueue e =>
      cases hs : m.started with
      | true =>
        obtain ⟨o, d, h1, h2, h3⟩ := ih (step m (.enqueue e)).1 ht' old done (by rw [s3]; simpa [step, enqueue, hs] using hc)
        refine ⟨o, d, ?_, by rw [h2, s3], fun h => h3 (fun x => h (by simp [x]))⟩
        rw [← h1]
        simp [step, enqueue, hs, Spec.accepted]
      | false =>
        obtain ⟨o, d, h1, h2, h3⟩ := ih (step m (.enqueue e)).1 ht' old done (by rw [s3]; simpa [step, enqueue, hs] using hc)
        refine ⟨o, d, ?_, by rw [h2, s3], fun h => h3 (fun x => h (by simp [x]))⟩
        rw [← h1]
        simp [step, enqueue, hs, Spec.accepted]
    | enqueueAndUpdate e =>
      have ht2 : (enqueue m e).table = buildTable c.states := by simp only [enqueue]; split <;> exact ht
      have hcur : (enqueue m e).cur = m.cur := by simp only [enqueue]; split <;> rfl
      have hst : (enqueue m e).started = m.started := by simp only [enqueue]; split <;> rfl
      obtain ⟨dn, e1, e2, e3⟩ := update_spec c (enqueue m e) ht2
      obtain ⟨o, d, h1, h2, h3⟩ := ih (step m (.enqueueAndUpdate e)).1 ht' old (done ++ dn)
        (by rw [s3]; simp only [step]; rw [e2, hcur, hc, exec_append])
      refine ⟨o, d, ?_, by rw [h2, s3], fun h => h3 (fun x => h (by simp [x]))⟩
      rw [← h1]
      simp only [step, e3, hst]
      cases hs : m.started with
      | true =>
        have hq : (enqueue m e).queue = m.queue ++ [e] := by simp [enqueue, hs]
        rw [hq] at e1
        simp only [Spec.accepted, if_true]
        rw [show old ++ done ++ m.queue ++ e :: Spec.accepted true ops = old ++ done ++ (m.queue ++ [e]) ++ Spec.accepted true ops by simp, e1]
        simp
      | false =>
        have hq : (enqueue m e).queue = m.queue := by simp [enqueue, hs]
        rw [hq] at e1
        simp only [Spec.accepted, Bool.false_eq_true, if_false]
        rw [e1]
        simp
    | registerObserver ob =>
      obtain ⟨o, d, h1, h2, h3⟩ := ih (step m (.registerObserver ob)).1 ht' old done hc
      exact ⟨o, d, h1, h2, fun h => h3 (fun x => h (by simp [x]))⟩
    | unregisterObservers =>
      obtain ⟨o, d, h1, h2, h3⟩ := ih (step m .unregisterObservers).1 ht' old done hc
      exact ⟨o, d, h1, h2, fun h => h3 (fun x => h (by simp [x]))⟩

end Verif.Fsm
