import Verif.Lemmas.Loops
import Verif.Spec.FsmReentry

/-! The loops of the state machine and its listeners as nested loops. -/

namespace Verif.FsmR
open Verif Verif.Fsm Verif.Loops

/-- What a loop is for: a notification, or the actions of a listener. -/
abbrev Tag := (String × Bool) ⊕ (Nat × String × Kind)

def view : Ev → Option (LEv Tag)
  | .begin id n ch obs => some (.opn id (.inl (n, ch)) obs)
  | .call id o n ch => some (.item id (.inl (n, ch)) o)
  | .fin id => some (.cls id)
  | .phase id o n k as => some (.opn id (.inr (o, n, k)) as)
  | .act id o n k a => some (.item id (.inr (o, n, k)) a)
  | .over id _ _ _ => some (.cls id)
  | _ => none

def fview : Frame → Option (Nat × Tag × List Nat)
  | .notify id n ch _ rest => some (id, .inl (n, ch), rest)
  | .acts id o n k _ rest => some (id, .inr (o, n, k), rest)
  | .user => none

def isThrew : Ev → Bool
  | .threw => true
  | _ => false

def proj (s : St) : LS Tag := ⟨s.hist.filterMap view, s.stack.filterMap fview, s.nid, s.hist.any isThrew⟩

theorem unwind_suffix (l : List Frame) : ∃ pre, l = pre ++ unwind l := by
  induction l with
  | nil => exact ⟨[], rfl⟩
  | cons f r ih =>
    cases f with
    | user => exact ⟨[], rfl⟩
    | notify => obtain ⟨p, e⟩ := ih; exact ⟨_ :: p, by rw [unwind, List.cons_append, ← e]⟩
    | acts => obtain ⟨p, e⟩ := ih; exact ⟨_ :: p, by rw [unwind, List.cons_append, ← e]⟩

theorem LReach.to {s s' : LS Tag} (h : LReach s) (hs : LStep s s') {t : LS Tag} (e : t = s') : LReach t := e ▸ h.step hs

theorem lreach_startPhase {s : St} (o : Nat) (n : String) (k : Kind) (below : List Frame) (h : LReach ⟨s.hist.filterMap view, below.filterMap fview, s.nid, s.hist.any isThrew⟩) :
    LReach (proj (startPhase s o n k below)) := by
  refine LReach.to h (.opn _ (.inr (o, n, k)) (vec (s.lst o) k n)) ?_
  simp [proj, startPhase, view, fview, isThrew]

theorem lreach_step {lis : Nat → Bool} {s s' : St} {a : Act} (h : LReach (proj s)) (hs : step lis s a = some s') : LReach (proj s') := by
  unfold step at hs
  split at hs
  · cases hs
  cases a with
  | op x =>
    simp only at hs
    split at hs
    · cases hs
      cases x with
      | m op =>
        simp only [call]
        cases e : notice s.m op with
        | none =>
          refine cast (congrArg LReach ?_) h
          simp [proj, List.filterMap_append, List.filterMap_cons, view, isThrew]
        | some nc =>
          obtain ⟨n, ch⟩ := nc
          refine LReach.to h (.opn _ (.inl (n, ch)) (Fsm.step s.m op).1.observers) ?_
          simp [proj, List.filterMap_append, List.filterMap_cons, view, fview, isThrew]
      | l o op =>
        cases op with
        | notified n ch =>
          simp only [call, listen]
          refine lreach_startPhase _ _ _ _ ?_
          have : proj { s with hist := s.hist ++ [.op (.l o (.notified n ch))] } = proj s := by simp [proj, view, isThrew]
          exact (this ▸ h : LReach (proj { s with hist := s.hist ++ [.op (.l o (.notified n ch))] }))
        | _ =>
          simp only [call]
          refine cast (congrArg LReach ?_) h
          simp [proj, view, isThrew]
    · cases hs
  | tick =>
    simp only [tick] at hs
    split at hs
    · rename_i id n ch v rest below hst
      split at hs
      · cases hs; exact h
      · split at hs
        · cases hs
          refine LReach.to h (.cls _ id (.inl (n, ch)) (below.filterMap fview) (by simp [proj, hst, fview])) ?_
          simp [proj, view, isThrew]
        · rename_i o r
          have h1 : LReach ⟨(s.hist ++ [Ev.call id o n ch]).filterMap view, (Frame.notify id n ch v r :: below).filterMap fview, s.nid, (s.hist ++ [Ev.call id o n ch]).any isThrew⟩ := by
            refine LReach.to h (.item _ id (.inl (n, ch)) o r (below.filterMap fview) (by simp [proj, hst, fview])) ?_
            simp [proj, view, isThrew, fview]
          split at hs
          · cases hs
            exact lreach_startPhase _ _ _ _ h1
          · cases hs
            exact h1
    · rename_i id o n k v rest below hst
      split at hs
      · cases hs; exact h
      · split at hs
        · rename_i a r
          cases hs
          refine LReach.to h (.item _ id (.inr (o, n, k)) a r (below.filterMap fview) (by simp [proj, hst, fview])) ?_
          simp [proj, view, isThrew, List.filterMap_cons, fview]
        · have h1 : LReach ⟨(s.hist ++ [Ev.over id o n k]).filterMap view, below.filterMap fview, s.nid, (s.hist ++ [Ev.over id o n k]).any isThrew⟩ := by
            refine LReach.to h (.cls _ id (.inr (o, n, k)) (below.filterMap fview) (by simp [proj, hst, fview])) ?_
            simp [proj, view, isThrew]
          cases k with
          | once => cases hs; exact lreach_startPhase _ _ _ _ h1
          | entry => cases hs; exact lreach_startPhase _ _ _ _ h1
          | each => cases hs; exact h1
    · cases hs
  | ret =>
    simp only at hs
    split at hs
    · rename_i below hst
      cases hs
      have : proj { s with stack := below } = proj s := by simp [proj, hst, List.filterMap_cons, fview]
      exact this ▸ h
    · cases hs
  | throw =>
    simp only at hs
    split at hs
    · rename_i below hst
      cases hs
      obtain ⟨pre, e⟩ := unwind_suffix below
      refine LReach.to h (.drop _ (pre.filterMap fview) ((unwind below).filterMap fview) ?_) ?_
      · rw [← List.filterMap_append, ← e]; simp [proj, hst, List.filterMap_cons, fview]
      · simp [proj, view, isThrew]
    · cases hs

theorem Reach.loops {lis : Nat → Bool} {c : Cfg} {name : Nat → String} {ok : St → Act → Prop} {s : St} (h : Reach lis c name ok s) : LReach (proj s) := by
  induction h with
  | init => exact .init
  | step _ _ hs ih => exact lreach_step ih hs

/-! ### A notification is not a loop over actions -/

/-- The events of one step. -/
structure New (s : St) (l : List Ev) : Prop where
  begin : ∀ id n ch obs, .begin id n ch obs ∈ l → id = s.nid
  phase : ∀ id o n k as, .phase id o n k as ∈ l → id = s.nid
  fin : ∀ id, .fin id ∈ l → ∃ n ch, (id, .inl (n, ch), []) ∈ (proj s).loops
  over : ∀ id o n k, .over id o n k ∈ l → (id, .inr (o, n, k), []) ∈ (proj s).loops

theorem step_new {lis : Nat → Bool} {s s' : St} {a : Act} (hs : step lis s a = some s') : ∃ l, s'.hist = s.hist ++ l ∧ New s l := by
  have nil : New s [] := ⟨nofun, nofun, nofun, nofun⟩
  unfold step at hs
  split at hs
  · cases hs
  cases a with
  | op x =>
    simp only at hs
    split at hs
    · cases hs
      cases x with
      | m op =>
        simp only [call]
        split
        · exact ⟨_, rfl, by simp +contextual, by simp +contextual, by simp, by simp⟩
        · exact ⟨[_, _], List.append_assoc .., by simp +contextual, by simp +contextual, by simp, by simp⟩
      | l o op =>
        cases op with
        | notified n ch => exact ⟨[_, _], List.append_assoc .., by simp +contextual, by simp +contextual, by simp, by simp⟩
        | _ => exact ⟨[_], rfl, by simp +contextual, by simp +contextual, by simp, by simp⟩
    · cases hs
  | tick =>
    simp only [tick] at hs
    split at hs
    · rename_i id n ch v rest below hst
      split at hs
      · cases hs; exact ⟨[], (List.append_nil _).symm, nil⟩
      · split at hs
        · cases hs
          refine ⟨[_], rfl, by simp +contextual, by simp +contextual, ?_, by simp⟩
          intro i hi
          rw [List.mem_singleton] at hi
          cases hi
          exact ⟨n, ch, by simp [proj, hst, fview]⟩
        · split at hs
          · cases hs
            exact ⟨[_, _], List.append_assoc .., by simp +contextual, by simp +contextual, by simp, by simp⟩
          · cases hs
            exact ⟨[_], rfl, by simp +contextual, by simp +contextual, by simp, by simp⟩
    · rename_i id o n k v rest below hst
      split at hs
      · cases hs; exact ⟨[], (List.append_nil _).symm, nil⟩
      · split at hs
        · cases hs
          exact ⟨[_], rfl, by simp +contextual, by simp +contextual, by simp, by simp⟩
        · have hin : (id, .inr (o, n, k), []) ∈ (proj s).loops := by simp [proj, hst, fview]
          cases k with
          | once =>
            cases hs
            refine ⟨[.over id o n .once, _], List.append_assoc .., by simp +contextual, by simp +contextual, by simp, ?_⟩
            intro i o' n' k' hi
            simp only [List.mem_cons, List.not_mem_nil, or_false, reduceCtorEq] at hi
            cases hi; exact hin
          | entry =>
            cases hs
            refine ⟨[.over id o n .entry, _], List.append_assoc .., by simp +contextual, by simp +contextual, by simp, ?_⟩
            intro i o' n' k' hi
            simp only [List.mem_cons, List.not_mem_nil, or_false, reduceCtorEq] at hi
            cases hi; exact hin
          | each =>
            cases hs
            refine ⟨[.over id o n .each], rfl, by simp +contextual, by simp +contextual, by simp, ?_⟩
            intro i o' n' k' hi
            rw [List.mem_singleton] at hi
            cases hi; exact hin
    · cases hs
  | ret =>
    simp only at hs
    split at hs
    · cases hs; exact ⟨[], (List.append_nil _).symm, nil⟩
    · cases hs
  | throw =>
    simp only at hs
    split at hs
    · cases hs
      exact ⟨[_], rfl, by simp +contextual, by simp +contextual, by simp, by simp⟩
    · cases hs

theorem Reach.apart {lis : Nat → Bool} {c : Cfg} {name : Nat → String} {ok : St → Act → Prop} {s : St} (h : Reach lis c name ok s) :
    (∀ id n ch obs o n' k, .begin id n ch obs ∈ s.hist → .over id o n' k ∉ s.hist) ∧ (∀ id o n k as, .phase id o n k as ∈ s.hist → .fin id ∉ s.hist) ∧
    (∀ id o n k as o' n' k', .phase id o n k as ∈ s.hist → .over id o' n' k' ∈ s.hist → o' = o ∧ n' = n ∧ k' = k) := by
  induction h with
  | init => exact ⟨nofun, nofun, nofun⟩
  | @step s s' a h _ hs ih =>
    obtain ⟨l, hl, hn⟩ := step_new hs
    have hi := h.loops.inv
    have fresh : ∀ e ∈ s.hist, ∀ v, view e = some v → v.id < s.nid := fun e he v hv => hi.fresh v (List.mem_filterMap.mpr ⟨e, he, hv⟩)
    have lt : ∀ {x}, x ∈ (proj s).loops → x.1 < s.nid := fun {x} hx => hi.lfresh x hx
    rw [hl]
    refine ⟨fun id n ch obs o n' k hb ho => ?_, fun id o n k as hb ho => ?_, fun id o n k as o' n' k' hb ho => ?_⟩
    · rcases List.mem_append.mp hb with hb | hb <;> rcases List.mem_append.mp ho with ho | ho
      · exact ih.1 _ _ _ _ _ _ _ hb ho
      · obtain ⟨r, -, -, h3⟩ := hi.opn id (.inl (n, ch)) obs (List.mem_filterMap.mpr ⟨_, hb, rfl⟩)
        cases (h3 _ _ (hn.over _ _ _ _ ho)).1
      · have h1 : id = s.nid := hn.begin _ _ _ _ hb
        have h2 : id < s.nid := fresh _ ho (.cls id) rfl
        omega
      · have h1 : id = s.nid := hn.begin _ _ _ _ hb
        have h2 : id < s.nid := lt (hn.over _ _ _ _ ho)
        omega
    · rcases List.mem_append.mp hb with hb | hb <;> rcases List.mem_append.mp ho with ho | ho
      · exact ih.2.1 _ _ _ _ _ hb ho
      · obtain ⟨r, -, -, h3⟩ := hi.opn id (.inr (o, n, k)) as (List.mem_filterMap.mpr ⟨_, hb, rfl⟩)
        obtain ⟨n', ch', hf⟩ := hn.fin _ ho
        cases (h3 _ _ hf).1
      · have h1 : id = s.nid := hn.phase _ _ _ _ _ hb
        have h2 : id < s.nid := fresh _ ho (.cls id) rfl
        omega
      · have h1 : id = s.nid := hn.phase _ _ _ _ _ hb
        obtain ⟨n', ch', hf⟩ := hn.fin _ ho
        have h2 : id < s.nid := lt hf
        omega
    · rcases List.mem_append.mp hb with hb | hb <;> rcases List.mem_append.mp ho with ho | ho
      · exact ih.2.2 _ _ _ _ _ _ _ _ hb ho
      · obtain ⟨r, -, -, h3⟩ := hi.opn id (.inr (o, n, k)) as (List.mem_filterMap.mpr ⟨_, hb, rfl⟩)
        have := (h3 _ _ (hn.over _ _ _ _ ho)).1
        cases this; exact ⟨rfl, rfl, rfl⟩
      · have h1 : id = s.nid := hn.phase _ _ _ _ _ hb
        have h2 : id < s.nid := fresh _ ho (.cls id) rfl
        omega
      · have h1 : id = s.nid := hn.phase _ _ _ _ _ hb
        have h2 : id < s.nid := lt (hn.over _ _ _ _ ho)
        omega

end Verif.FsmR
