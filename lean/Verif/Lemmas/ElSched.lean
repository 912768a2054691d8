import Verif.Spec.ElSched
import Verif.Props.Scheduler
import Verif.Spec.LoopLive

/-! Lemmas for C86. -/

namespace Verif.ElS
open Verif

variable {D κ : Type}

/-! ### Every function taken up is called -/

/-- The function taken up and not yet called. -/
def pendTask : Option (ElD.Deliv (ElD.Msg D Nat)) → List Nat
  | some ⟨some (.fn f), _ :: _⟩ => [f]
  | _ => []

/-- The tasks among the events taken up. -/
def startedTasks (h : List (ElD.Ev (ElD.Msg D Nat))) : List Nat := (ElD.starts h).filterMap fun x => x.2.bind asTask

theorem called_append (h h' : List (ElD.Ev (ElD.Msg D Nat))) : called (h ++ h') = called h ++ called h' := by simp [called]

theorem startedTasks_append (h h' : List (ElD.Ev (ElD.Msg D Nat))) : startedTasks (h ++ h') = startedTasks h ++ startedTasks h' := by simp [startedTasks, ElD.starts]

theorem withSub_hist {s s' : ElD.St D Nat} {i : Nat} {f : ElD.Sub → Option (ElD.St D Nat)}
    (hf : ∀ o s', f o = some s' → s'.del = s.del ∧ called s'.hist = called s.hist ∧ startedTasks s'.hist = startedTasks s.hist)
    (h : ElD.withSub s i f = some s') : s'.del = s.del ∧ called s'.hist = called s.hist ∧ startedTasks s'.hist = startedTasks s.hist := by
  simp only [ElD.withSub] at h
  split at h
  · split at h
    · cases h; simp [called, startedTasks, ElD.starts]
    · exact hf _ _ h
  · cases h; simp [called, startedTasks, ElD.starts]
  · cases h

theorem step_hist {k : Nat} {c : Bool} {s s' : ElD.St D Nat} {x : ElD.Act D Nat} (hs : ElD.step k c s x = some s') (h1 : x ≠ .loop .advance) (h2 : ∀ r, x ≠ .call r)
    (h3 : x ≠ .loop .finish) : s'.del = s.del ∧ called s'.hist = called s.hist ∧ startedTasks s'.hist = startedTasks s.hist := by
  match x, hs with
  | .getPublisher n, hs =>
    simp only [ElD.step] at hs
    split at hs <;> cases hs <;> simp [called, startedTasks, ElD.starts]
  | .getSubscriber n kd, hs =>
    simp only [ElD.step] at hs
    (repeat' split at hs) <;> first | (cases hs; done) | (cases hs; exact ⟨rfl, rfl, rfl⟩)
  | .getScheduler n, hs =>
    simp only [ElD.step] at hs
    split at hs
    · cases hs; simp
    · split at hs
      · cases hs
        have e1 : ∀ y : List (ElD.Ev (ElD.Msg D Nat)), y = (if ElD.schedName n ∈ s.pubs then [.bad] else []) →
            called (s.hist ++ [.sched (ElD.schedName n)] ++ y) = called s.hist ∧ startedTasks (s.hist ++ [.sched (ElD.schedName n)] ++ y) = startedTasks s.hist := by
          rintro y rfl
          split <;> simp [called, startedTasks, ElD.starts]
        simp only [ElD.makeScheduler]
        split
        · simp only [ElD.destroy]
          split <;> exact ⟨rfl, e1 _ rfl⟩
        · exact ⟨rfl, e1 _ rfl⟩
      · cases hs
  | .reg i l, hs =>
    refine withSub_hist (fun o s' h => ?_) hs
    (repeat' split at h) <;> first | (cases h; done) | (cases h; simp [called, startedTasks, ElD.starts])
  | .once i, hs =>
    refine withSub_hist (fun o s' h => ?_) hs
    (repeat' split at h) <;> first | (cases h; done) | (cases h; simp [called, startedTasks, ElD.starts])
  | .rem i l, hs =>
    refine withSub_hist (fun o s' h => ?_) hs
    (repeat' split at h) <;> first | (cases h; done) | (cases h; simp [called, startedTasks, ElD.starts])
  | .call ret, hs => exact absurd rfl (h2 ret)
  | .loop .advance, hs => exact absurd rfl h1
  | .loop .finish, hs => exact absurd rfl h3
  | .loop .throw, hs => cases hs
  | .loop (.call ..), hs | .loop (.claim ..), hs | .loop (.weak ..), hs | .loop (.write ..), hs | .loop (.publish ..), hs | .loop .start, hs
  | .loop .run, hs | .loop .look, hs | .loop .scan, hs | .loop .stop, hs =>
    simp only [ElD.step] at hs
    split at hs
    · rw [Option.map_eq_some_iff] at hs
      obtain ⟨l, hl, rfl⟩ := hs
      exact ⟨rfl, rfl, rfl⟩
    · cases hs

/-- What has been called and what is about to be. -/
structure J (s : ElD.St D Nat) : Prop where
  all : called s.hist ++ pendTask s.del = startedTasks s.hist
  one : ∀ f todo, s.del = some ⟨some (.fn f), todo⟩ → todo.length ≤ 1

theorem J.init (kind : ElD.Kind) : J (ElD.St.init kind : ElD.St D Nat) := ⟨rfl, by simp [ElD.St.init]⟩

theorem pendTask_ev (d : D) (todo : List (Nat × ElD.Handler)) : pendTask (D := D) (some ⟨some (.ev d), todo⟩) = [] := by simp [pendTask]

variable [DecidableEq D]

theorem J.step {k : Nat} (hk : k ≤ 30) {c : Bool} {s s' : ElD.St D Nat} {a : ElD.Abs (ElD.Msg D Nat)} {ls : Nat → List ElD.Lst} (hi : ElD.Inv k s a ls) (h : J s)
    {x : ElD.Act D Nat} (hs : ElD.step k c s x = some s') : J s' := by
  by_cases h1 : x = .loop .advance
  · subst h1
    simp only [ElD.step] at hs
    split at hs
    · cases hs
    rename_i l hl
    rcases ElD.loop_advance hk hi.loop hl with ⟨_, h2, h3, _⟩ | ⟨e, m, h1, h2, h3, h4, ⟨p, x, h5⟩, _⟩
    · rw [h2] at hs
      cases hs
      exact ⟨h.all, h.one⟩
    · rw [h2] at hs
      simp only [h3, Option.some.injEq] at hs
      have hdel : s.del = none := by
        cases hd : s.del with
        | none => rfl
        | some d => exact absurd (hi.hd.mp (by rw [hd]; rfl)) h1
      have hw := hi.acc p _ _ x h5
      have h0 : called s.hist = startedTasks s.hist := by
        have := h.all
        rw [hdel] at this
        simpa [pendTask] using this
      subst hs
      have hb : ∀ y : List (ElD.Ev (ElD.Msg D Nat)), (y = [] ∨ y = [.bad]) →
          called (s.hist ++ [.start e.topic (some m)] ++ y) = called s.hist ∧
          startedTasks (s.hist ++ [.start e.topic (some m)] ++ y) = startedTasks s.hist ++ (asTask m).toList := by
        rintro y (rfl | rfl) <;> cases m <;> simp [called, startedTasks, ElD.starts, asTask]
      obtain ⟨e1, e2⟩ := hb (if ElD.fits s e.topic (some m) = true then [] else [.bad]) (by split <;> simp)
      cases m with
      | ev d =>
        refine ⟨?_, fun f todo hd => by cases hd⟩
        show called _ ++ pendTask (some ⟨some (.ev d), _⟩) = startedTasks _
        rw [pendTask_ev, e1, e2, h0]
        rfl
      | fn f =>
        obtain ⟨i, no, ht⟩ : ∃ i no, ElD.targets s e.topic = [(i, ⟨0, no, false⟩)] := by
          obtain ⟨_, j, id, no, c1, c2⟩ := hi.regs.sch e.topic hw
          rcases hi.regs.targets e.topic with ⟨b0, _⟩ | ⟨i, o, b1, b2, _⟩ | ⟨i, id, no, _, _, _, b4, _⟩
          · rw [b0] at c1; cases c1
          · rw [b1] at c1; cases c1
            rw [b2] at c2; cases c2
          · exact ⟨i, no, b4⟩
        refine ⟨?_, ?_⟩
        · show called _ ++ pendTask (some ⟨some (.fn f), ElD.targets s e.topic⟩) = startedTasks _
          rw [e1, e2, h0, ht]
          rfl
        · intro f' todo hd
          cases hd
          rw [ht]; simp
  · by_cases h2 : ∃ r, x = .call r
    · obtain ⟨r, rfl⟩ := h2
      have hdead : s.dead = [] := hi.regs.dead
      -- the effect of a call
      have eff : ∃ m t rest b, s.del = some ⟨some m, t :: rest⟩ ∧ s'.hist = s.hist ++ [.call t.2.cb m b] ∧ (s'.del = some ⟨some m, rest⟩ ∨ s'.del = none) := by
        have ht : ∀ {s0 : ElD.St D Nat}, ElD.thrown k s0 = some s' → s'.hist = s0.hist ∧ s'.del = none := by
          intro s0 h
          simp only [ElD.thrown, Option.map_eq_some_iff] at h
          obtain ⟨l, hl, rfl⟩ := h
          exact ⟨rfl, rfl⟩
        simp only [ElD.step, hdead, List.not_mem_nil, if_false] at hs
        split at hs
        · rename_i m i hd rest hdl
          split at hs
          · exact ⟨m, _, rest, _, hdl, (ht hs).1, .inr (ht hs).2⟩
          · split at hs
            · split at hs
              · cases hs; exact ⟨m, (i, hd), rest, true, hdl, rfl, .inl rfl⟩
              · exact ⟨m, _, rest, _, hdl, (ht hs).1, .inr (ht hs).2⟩
            · cases hs; exact ⟨m, (i, hd), rest, true, hdl, rfl, .inl rfl⟩
        · cases hs
      obtain ⟨m, t, rest, b, d1, d2, d3⟩ := eff
      have hst : startedTasks s'.hist = startedTasks s.hist := by
        rw [d2, startedTasks_append]; simp [startedTasks, ElD.starts]
      have hca : called s'.hist = called s.hist ++ (asTask m).toList := by
        rw [d2, called_append]; cases m <;> rfl
      have hall := h.all
      rw [d1] at hall
      cases m with
      | ev d =>
        rw [pendTask_ev, List.append_nil] at hall
        rcases d3 with d3 | d3
        · refine ⟨?_, fun f todo hd => by rw [d3] at hd; cases hd⟩
          rw [d3, pendTask_ev, hst, hca, ← hall]; simp [asTask]
        · refine ⟨?_, fun f todo hd => by rw [d3] at hd; cases hd⟩
          rw [d3, hst, hca, ← hall]; simp [asTask, pendTask]
      | fn f =>
        have hle := h.one f _ d1
        have hr : rest = [] := by
          cases rest with
          | nil => rfl
          | cons x rest => simp at hle
        subst hr
        have hp : pendTask s'.del = [] := by rcases d3 with d3 | d3 <;> rw [d3] <;> rfl
        refine ⟨?_, ?_⟩
        · rw [hp, hst, hca, ← hall]; simp [asTask, pendTask]
        · intro f' todo hd
          rcases d3 with d3 | d3 <;> rw [d3] at hd <;> cases hd
          simp
    · by_cases h3 : x = .loop .finish
      · subst h3
        simp only [ElD.step] at hs
        split at hs
        · rename_i m hd
          rw [Option.map_eq_some_iff] at hs
          obtain ⟨l, hl, rfl⟩ := hs
          refine ⟨?_, fun f todo hd => by cases hd⟩
          have := h.all
          rw [hd] at this
          show called (s.hist ++ [.fin]) ++ pendTask none = startedTasks (s.hist ++ [.fin])
          rw [called_append, startedTasks_append, ← this]
          rcases m with _ | (_ | _) <;> simp [pendTask, called, startedTasks, ElD.starts]
        · cases hs
      · obtain ⟨e1, e2, e3⟩ := step_hist hs h1 (fun r e => h2 ⟨r, e⟩) h3
        exact ⟨by rw [e1, e2, e3]; exact h.all, by rw [e1]; exact h.one⟩

theorem reach_J {k : Nat} (hk : k ≤ 30) {c : Bool} {kind : ElD.Kind} {s : ElD.St D Nat} (h : ElD.Reach k c kind ElD.OkDrained s) : J s := by
  induction h with
  | init => exact J.init kind
  | step hr _ hs ih =>
    obtain ⟨a, ls, _, hi⟩ := ElD.Reach.inv hk (ElD.Reach.mono (fun _ _ h => h.1) hr)
    exact ih.step hk hi hs

/-! ### The scheduler and the loop together -/

omit [DecidableEq D] in
/-- Which actions of the provider change the publishers and the scheduler it has. -/
theorem step_maps {k : Nat} {c : Bool} {s s' : ElD.St D Nat} {x : ElD.Act D Nat} (hs : ElD.step k c s x = some s') :
    (s'.pubs = s.pubs ∧ s'.sched = s.sched) ∨ (s'.loop = s.loop ∧ s'.sched = s.sched ∧ ∃ n, s'.pubs = n :: s.pubs) ∨
    (s'.loop = s.loop ∧ s'.pubs = s.pubs ∧ s.sched = none ∧ ∃ n, x = .getScheduler n ∧ s'.sched = some (ElD.schedName n)) := by
  have sub : ∀ {i : Nat} {f : ElD.Sub → Option (ElD.St D Nat)}, (∀ o s', f o = some s' → s'.pubs = s.pubs ∧ s'.sched = s.sched) → ElD.withSub s i f = some s' →
      s'.pubs = s.pubs ∧ s'.sched = s.sched := by
    intro i f hf h
    simp only [ElD.withSub] at h
    split at h
    · split at h
      · cases h; exact ⟨rfl, rfl⟩
      · exact hf _ _ h
    · cases h; exact ⟨rfl, rfl⟩
    · cases h
  match x, hs with
  | .getPublisher n, hs =>
    simp only [ElD.step] at hs
    split at hs <;> cases hs
    · exact .inl ⟨rfl, rfl⟩
    · exact .inr (.inl ⟨rfl, rfl, n, rfl⟩)
  | .getSubscriber n kd, hs =>
    simp only [ElD.step] at hs
    (repeat' split at hs) <;> first | (cases hs; done) | (cases hs; exact .inl ⟨rfl, rfl⟩)
  | .getScheduler n, hs =>
    simp only [ElD.step] at hs
    split at hs
    · cases hs; exact .inl ⟨rfl, rfl⟩
    · rename_i h0
      split at hs
      · cases hs
        refine .inr (.inr ?_)
        simp only [ElD.makeScheduler]
        split
        · simp only [ElD.destroy]
          split <;> exact ⟨rfl, rfl, h0, n, rfl, rfl⟩
        · exact ⟨rfl, rfl, h0, n, rfl, rfl⟩
      · cases hs
  | .reg i l, hs =>
    refine .inl (sub (fun o s' h => ?_) hs)
    (repeat' split at h) <;> first | (cases h; done) | (cases h; exact ⟨rfl, rfl⟩)
  | .once i, hs =>
    refine .inl (sub (fun o s' h => ?_) hs)
    (repeat' split at h) <;> first | (cases h; done) | (cases h; exact ⟨rfl, rfl⟩)
  | .rem i l, hs =>
    refine .inl (sub (fun o s' h => ?_) hs)
    (repeat' split at h) <;> first | (cases h; done) | (cases h; exact ⟨rfl, rfl⟩)
  | .call ret, hs =>
    have ht : ∀ {s0 : ElD.St D Nat}, ElD.thrown k s0 = some s' → s'.pubs = s0.pubs ∧ s'.sched = s0.sched := by
      intro s0 h
      simp only [ElD.thrown, Option.map_eq_some_iff] at h
      obtain ⟨l, hl, rfl⟩ := h
      exact ⟨rfl, rfl⟩
    left
    simp only [ElD.step] at hs
    (repeat' split at hs) <;> first | (cases hs; done) | (cases hs; exact ⟨rfl, rfl⟩) | exact ⟨(ht hs).1, (ht hs).2⟩
  | .loop .throw, hs => cases hs
  | .loop .advance, hs =>
    left
    simp only [ElD.step] at hs
    (repeat' split at hs) <;> first | (cases hs; done) | (cases hs; exact ⟨rfl, rfl⟩)
  | .loop .finish, hs =>
    left
    simp only [ElD.step] at hs
    split at hs
    · simp only [Option.map_eq_some_iff] at hs
      obtain ⟨l, hl, rfl⟩ := hs
      exact ⟨rfl, rfl⟩
    · cases hs
  | .loop (.call ..), hs | .loop (.claim ..), hs | .loop (.weak ..), hs | .loop (.write ..), hs | .loop (.publish ..), hs | .loop .start, hs
  | .loop .run, hs | .loop .look, hs | .loop .scan, hs | .loop .stop, hs =>
    simp only [ElD.step] at hs
    split at hs
    · rw [Option.map_eq_some_iff] at hs
      obtain ⟨l, hl, rfl⟩ := hs
      exact .inl ⟨rfl, rfl⟩
    · cases hs

variable [DecidableEq κ]

/-- The provider and the basic scheduler inside. -/
theorem Reach.el {k : Nat} {c : Bool} {kind : ElD.Kind} {s : St D κ} (h : Reach k c kind s) : ElD.Reach k c kind ElD.OkDrained s.el := by
  induction h with
  | init => exact .init
  | @step s s' a hr hok hs ih =>
    unfold ElS.step at hs
    split at hs
    · cases hs
    cases a with
    | start b n r =>
      simp only [lift] at hs
      split at hs
      · obtain ⟨_, _, rfl⟩ := Option.map_eq_some_iff.mp hs; exact ih
      · cases hs
    | stop b n =>
      simp only at hs
      split at hs
      · obtain ⟨_, _, rfl⟩ := Option.map_eq_some_iff.mp hs; exact ih
      · cases hs
    | joined | test _ =>
      obtain ⟨_, _, rfl⟩ := Option.map_eq_some_iff.mp hs; exact ih
    | finish id =>
      simp only [lift] at hs
      split at hs
      · obtain ⟨_, _, rfl⟩ := Option.map_eq_some_iff.mp hs; exact ih
      · cases hs
    | wake id =>
      simp only at hs
      split at hs
      · cases hs
      split at hs
      · rename_i hl; cases hs
        exact ih.step (a := .loop (.call ..)) ⟨⟨trivial, trivial⟩, fun a ha hst => by cases ha; cases hst⟩ hl
      · cases hs
    | enter =>
      simp only at hs
      split at hs <;> cases hs
      exact ih
    | leave ret =>
      simp only at hs
      split at hs
      · obtain ⟨l, hl, rfl⟩ := Option.map_eq_some_iff.mp hs
        exact ih.step (a := .call ret) ⟨⟨trivial, trivial⟩, nofun⟩ hl
      · cases hs
    | el a =>
      simp only at hs
      split at hs
      · obtain ⟨l, hl, rfl⟩ := Option.map_eq_some_iff.mp hs
        exact ih.step hok hl
      · cases hs

/-- One step by cases. -/
theorem step_cases {k : Nat} {c : Bool} {s s' : St D κ} {a : Act D κ} (hs : step k c s a = some s') : s.sch.terminated = false ∧
    ((s'.el = s.el ∧ s'.lost = s.lost ∧ (s'.sch = s.sch ∨ ∃ b, (∀ id, b ≠ .wake id) ∧ (∀ id, b = .finish id → returned s.el.loop (thr id) = true) ∧ b ≠ .loop ∧
        Sched.step true s.sch b = some s'.sch)) ∨
     (∃ id t, a = .wake id ∧ s.el.sched = some t ∧ s'.lost = s.lost ∧ Sched.step true s.sch (.wake id) = some s'.sch ∧
        ElD.step k c s.el (.loop (.call (thr id) t (.fn id))) = some s'.el) ∨
     (∃ r, a = .leave r ∧ s'.sch = s.sch ∧ s'.lost = s.lost ∧ ElD.step k c s.el (.call r) = some s'.el) ∨
     ∃ x, a = .el x ∧ free x = true ∧ s'.sch = s.sch ∧ ElD.step k c s.el x = some s'.el ∧ s'.lost = lostNow s.el.loop s'.el.loop x ++ s.lost) := by
  unfold ElS.step at hs
  split at hs
  · cases hs
  rename_i htm
  refine ⟨by simpa using htm, ?_⟩
  cases a with
  | start b n r =>
    simp only [lift] at hs
    split at hs
    · obtain ⟨_, h, rfl⟩ := Option.map_eq_some_iff.mp hs; exact .inl ⟨rfl, rfl, .inr ⟨.start n r, nofun, nofun, nofun, h⟩⟩
    · cases hs
  | stop b n =>
    simp only at hs
    split at hs
    · obtain ⟨_, h, rfl⟩ := Option.map_eq_some_iff.mp hs; exact .inl ⟨rfl, rfl, .inr ⟨.stop n, nofun, nofun, nofun, h⟩⟩
    · cases hs
  | joined => obtain ⟨_, h, rfl⟩ := Option.map_eq_some_iff.mp hs; exact .inl ⟨rfl, rfl, .inr ⟨.joined, nofun, nofun, nofun, h⟩⟩
  | test i => obtain ⟨_, h, rfl⟩ := Option.map_eq_some_iff.mp hs; exact .inl ⟨rfl, rfl, .inr ⟨.test i, nofun, nofun, nofun, h⟩⟩
  | finish id =>
    simp only [lift] at hs
    split at hs
    · rename_i hret
      obtain ⟨_, h, rfl⟩ := Option.map_eq_some_iff.mp hs; exact .inl ⟨rfl, rfl, .inr ⟨.finish id, nofun, fun i hi => by cases hi; exact hret, nofun, h⟩⟩
    · cases hs
  | wake id =>
    simp only at hs
    split at hs
    · cases hs
    split at hs
    · rename_i hsch _ _ _ _ h1 h2; cases hs
      exact .inr (.inl ⟨id, _, rfl, hsch, rfl, h1, h2⟩)
    · cases hs
  | enter =>
    simp only at hs
    split at hs <;> cases hs
    exact .inl ⟨rfl, rfl, .inl rfl⟩
  | leave ret =>
    simp only at hs
    split at hs
    · obtain ⟨l, hl, rfl⟩ := Option.map_eq_some_iff.mp hs
      exact .inr (.inr (.inl ⟨ret, rfl, rfl, rfl, hl⟩))
    · cases hs
  | el a =>
    simp only at hs
    split at hs
    · rename_i hf
      obtain ⟨l, hl, rfl⟩ := Option.map_eq_some_iff.mp hs
      exact .inr (.inr (.inr ⟨a, rfl, hf, rfl, hl, rfl⟩))
    · cases hs

theorem Reach.sch {k : Nat} {c : Bool} {kind : ElD.Kind} {s : St D κ} (h : Reach k c kind s) : Sched.Reach true s.sch := by
  induction h with
  | init => exact .init
  | @step s s' a hr hok hs ih =>
    rcases (step_cases hs).2 with ⟨_, _, h | ⟨b, _, _, _, h⟩⟩ | ⟨id, t, _, _, _, h, _⟩ | ⟨r, _, h, _⟩ | ⟨x, _, _, h, _⟩
    · rw [h]; exact ih
    · exact ih.step b h
    · exact ih.step _ h
    · rw [h]; exact ih
    · rw [h]; exact ih

/-! ### Accounts -/

omit [DecidableEq D] [DecidableEq κ]

/-- The tasks accepted by the ring, newest first. -/
def accTasks (l : EvLoop.St (ElD.Msg D Nat)) : List Nat := l.accepted.filterMap fun a => asTask a.2.2.1

/-- Is thread `p` inside `try_next`? -/
def undec (l : EvLoop.St (ElD.Msg D Nat)) (p : Nat) : Nat :=
  match l.pc p with
  | .claiming _ _ => 1
  | _ => 0

structure LoopInv (l : EvLoop.St (ElD.Msg D Nat)) (fired : Nat → Nat) (lost : List Nat) : Prop where
  own : ∀ p t f, l.pc p = .claiming t (.fn f) → p = thr f
  ev : ∀ id t d, l.pc (thr id) ≠ .claiming t (.ev d)
  acct : ∀ id, fired id = (accTasks l).count id + lost.count id + undec l (thr id)

theorem thr_inj {i j : Nat} (h : thr i = thr j) : i = j := by simp only [thr] at h; omega

theorem undec_upd {l l' : EvLoop.St (ElD.Msg D Nat)} {p q : Nat} {pc : EvLoop.Pc (ElD.Msg D Nat)} (h : l'.pc = upd l.pc p pc) (hne : q ≠ p) : undec l' q = undec l q := by
  simp only [undec, h, upd_other _ _ hne]

/-- Steps of the loop other than publications of functions. -/
theorem LoopInv.step {k : Nat} {l l' : EvLoop.St (ElD.Msg D Nat)} {a : EvLoop.Act (ElD.Msg D Nat)} {fired : Nat → Nat} {lost : List Nat} (h : LoopInv l fired lost)
    (e : EvLoop.Eff k l l' a) (hf : free (.loop a : ElD.Act D Nat) = true) : LoopInv l' fired (lostNow l l' (.loop a) ++ lost) := by
  -- a thread that leaves a place other than `try_next` for another such place
  have keep : ∀ {p : Nat} {pc : EvLoop.Pc (ElD.Msg D Nat)}, l'.pc = upd l.pc p pc → (∀ t d, pc ≠ .claiming t d) → (∀ t d, l.pc p ≠ .claiming t d) →
      l'.accepted = l.accepted → lostNow l l' (.loop a) = [] → LoopInv l' fired (lostNow l l' (.loop a) ++ lost) := by
    intro p pc e1 e2 e3 e4 e5
    rw [e5, List.nil_append]
    refine ⟨?_, ?_, ?_⟩
    · intro q t f hq
      rw [e1] at hq
      by_cases hqp : q = p
      · subst hqp; rw [upd_same] at hq; exact absurd hq (e2 _ _)
      · rw [upd_other _ _ hqp] at hq; exact h.own q t f hq
    · intro id t d hq
      rw [e1] at hq
      by_cases hqp : thr id = p
      · rw [hqp, upd_same] at hq; exact absurd hq (e2 _ _)
      · rw [upd_other _ _ hqp] at hq; exact h.ev id t d hq
    · intro id
      rw [h.acct id]
      have hu : undec l' (thr id) = undec l (thr id) := by
        by_cases hqp : thr id = p
        · have u1 : undec l' p = 0 := by
            have : l'.pc p = pc := by rw [e1, upd_same]
            unfold undec
            rw [this]
            cases pc with
            | claiming t d => exact absurd rfl (e2 t d)
            | _ => rfl
          have u2 : undec l p = 0 := by
            unfold undec
            cases hq : l.pc p with
            | claiming t d => exact absurd hq (e3 t d)
            | _ => rfl
          rw [hqp, u1, u2]
        · exact undec_upd e1 hqp
      rw [hu]
      simp only [accTasks, e4]
  have same : l'.pc = l.pc → l'.accepted = l.accepted → lostNow l l' (.loop a) = [] → LoopInv l' fired (lostNow l l' (.loop a) ++ lost) := by
    intro e1 e4 e5
    rw [e5, List.nil_append]
    refine ⟨fun p t f => by rw [e1]; exact h.own p t f, fun id t d => by rw [e1]; exact h.ev id t d, fun id => ?_⟩
    rw [h.acct id]
    simp only [accTasks, e4, undec, e1]
  cases e with
  | call p t d h1 h' =>
    cases d with
    | fn f => simp [free] at hf
    | ev d =>
      have hp : ∀ id, thr id ≠ p := by
        intro id e
        simp only [free, beq_iff_eq] at hf
        simp only [thr] at e
        omega
      have e1 : l'.pc = upd l.pc p (.claiming t (.ev d)) := by rw [h']
      have e4 : l'.accepted = l.accepted := by rw [h']
      refine ⟨?_, ?_, ?_⟩
      · intro q t' f hq
        rw [e1] at hq
        simp only [upd_apply] at hq
        split at hq
        · cases hq
        · exact h.own q t' f hq
      · intro id t' d' hq
        rw [e1, upd_other _ _ (hp id)] at hq
        exact h.ev id t' d' hq
      · intro id
        rw [h.acct id, undec_upd e1 (hp id)]
        simp only [accTasks, e4]
        rfl
  | got p t d h1 h2 h' =>
    have e1 : l'.pc = upd l.pc p (.claimed t d (l.ring.cursor + 1)) := by rw [h']
    have e5 : lostNow l l' (.loop (.claim p)) = [] := by simp [lostNow, e1, h1]
    have g1 : ∀ q t' f, l'.pc q = .claiming t' (.fn f) → q = thr f := by
      intro q t' f hq
      rw [e1] at hq
      by_cases hqp : q = p
      · subst hqp; rw [upd_same] at hq; cases hq
      · rw [upd_other _ _ hqp] at hq; exact h.own q t' f hq
    have g2 : ∀ id t' d', l'.pc (thr id) ≠ .claiming t' (.ev d') := by
      intro id t' d' hq
      rw [e1] at hq
      by_cases hqp : thr id = p
      · rw [hqp, upd_same] at hq; cases hq
      · rw [upd_other _ _ hqp] at hq; exact h.ev id t' d' hq
    refine ⟨g1, g2, fun id => ?_⟩
    rw [h.acct id, e5, List.nil_append]
    cases d with
    | ev d =>
      have hp : thr id ≠ p := fun e => h.ev id t d (by rw [e]; exact h1)
      have : accTasks l' = accTasks l := by simp [accTasks, h', asTask]
      rw [this, undec_upd e1 hp]
    | fn f =>
      have hp := h.own p t f h1
      have : accTasks l' = f :: accTasks l := by simp [accTasks, h', asTask]
      rw [this, List.count_cons]
      by_cases hid : id = f
      · subst hid
        have u1 : undec l (thr id) = 1 := by simp [undec, ← hp, h1]
        have u2 : undec l' (thr id) = 0 := by simp [undec, e1, ← hp]
        rw [u1, u2]; simp; omega
      · have hne : thr id ≠ p := fun e => hid (thr_inj (e.trans hp))
        have : (f == id) = false := by simpa using fun e => hid e.symm
        rw [undec_upd e1 hne, this]; simp
  | refused p t d m h1 h' =>
    have e1 : l'.pc = upd l.pc p .idle := by rw [h']
    have e4 : l'.accepted = l.accepted := by rw [h']
    have g1 : ∀ q t' f, l'.pc q = .claiming t' (.fn f) → q = thr f := by
      intro q t' f hq
      rw [e1] at hq
      by_cases hqp : q = p
      · subst hqp; rw [upd_same] at hq; cases hq
      · rw [upd_other _ _ hqp] at hq; exact h.own q t' f hq
    have g2 : ∀ id t' d', l'.pc (thr id) ≠ .claiming t' (.ev d') := by
      intro id t' d' hq
      rw [e1] at hq
      by_cases hqp : thr id = p
      · rw [hqp, upd_same] at hq; cases hq
      · rw [upd_other _ _ hqp] at hq; exact h.ev id t' d' hq
    refine ⟨g1, g2, fun id => ?_⟩
    rw [h.acct id]
    have e6 : accTasks l' = accTasks l := by simp [accTasks, e4]
    rw [e6]
    cases d with
    | ev d =>
      have hp : thr id ≠ p := fun e => h.ev id t d (by rw [e]; exact h1)
      have e5 : lostNow l l' (.loop (.claim p)) = [] := by simp [lostNow, h1]
      rw [undec_upd e1 hp, e5, List.nil_append]
    | fn f =>
      have hp := h.own p t f h1
      have e5 : lostNow l l' (.loop (.claim p)) = [f] := by simp [lostNow, h1, e1]
      rw [e5, List.singleton_append, List.count_cons]
      by_cases hid : id = f
      · subst hid
        have u1 : undec l (thr id) = 1 := by simp [undec, ← hp, h1]
        have u2 : undec l' (thr id) = 0 := by simp [undec, e1, ← hp]
        rw [u1, u2]; simp; omega
      · have hne : thr id ≠ p := fun e => hid (thr_inj (e.trans hp))
        have : (f == id) = false := by simpa using fun e => hid e.symm
        rw [undec_upd e1 hne, this]; simp
  | more p t d m pc' h1 _ _ h' =>
    refine same (by rw [h']) (by rw [h']) ?_
    simp [lostNow, h', h1]
  | weak p t d cur h1 _ h' => exact same (by rw [h']) (by rw [h']) rfl
  | write p t d x h1 h2 h' => exact keep (p := p) (pc := .written t d x) (by rw [h']) nofun (by rw [h1]; nofun) (by rw [h']) rfl
  | publish p t d x h1 h2 h' => exact keep (p := p) (pc := .idle) (by rw [h']) nofun (by rw [h1]; nofun) (by rw [h']) rfl
  | start | run | lookNone | look | scan | event | batchEnd | finish | throw | stop =>
    rename l' = _ => h'; exact same (by rw [h']) (by rw [h']) rfl

/-- A firing: the thread of the task enters `publish`. -/
theorem LoopInv.fire {l l' : EvLoop.St (ElD.Msg D Nat)} {fired fired' : Nat → Nat} {lost : List Nat} (h : LoopInv l fired lost) {id : Nat} {t : String}
    (h0 : l.pc (thr id) = .idle) (h1 : l'.pc = upd l.pc (thr id) (.claiming t (.fn id))) (h2 : l'.accepted = l.accepted)
    (h3 : ∀ i, fired' i = fired i + if i = id then 1 else 0) : LoopInv l' fired' lost := by
  refine ⟨?_, ?_, ?_⟩
  · intro q t' f hq
    rw [h1] at hq
    by_cases hqp : q = thr id
    · subst hqp; rw [upd_same] at hq; cases hq; rfl
    · rw [upd_other _ _ hqp] at hq; exact h.own q t' f hq
  · intro i t' d' hq
    rw [h1] at hq
    by_cases hqp : thr i = thr id
    · rw [hqp, upd_same] at hq; cases hq
    · rw [upd_other _ _ hqp] at hq; exact h.ev i t' d' hq
  · intro i
    have e6 : accTasks l' = accTasks l := by simp [accTasks, h2]
    rw [h3 i, h.acct i, e6]
    by_cases hid : i = id
    · subst hid
      have u1 : undec l (thr i) = 0 := by simp [undec, h0]
      have u2 : undec l' (thr i) = 1 := by simp [undec, h1]
      rw [u1, u2]; simp
    · rw [undec_upd h1 (fun e => hid (thr_inj e)), if_neg hid]; rfl

/-- Discards are counted. -/
theorem disc_step {k : Nat} {l l' : EvLoop.St (ElD.Msg D Nat)} {a : EvLoop.Act (ElD.Msg D Nat)} (e : EvLoop.Eff k l l' a) {pubs : List String} {sched : Option String}
    (hw : ∀ p t d, l.pc p = .claiming t d → match d with | .ev _ => t ∈ pubs | .fn _ => sched = some t) :
    (∀ t, l.discarded t ≤ l'.discarded t) ∧ (∀ t, l'.discarded t ≠ l.discarded t → t ∈ pubs ∨ sched = some t) ∧
    (∀ t, sched = some t → t ∉ pubs → l'.discarded t = l.discarded t + (lostNow l l' (.loop a)).length) ∧
    (sched = none → lostNow l l' (.loop a) = []) := by
  have same : l'.discarded = l.discarded → lostNow l l' (.loop a) = [] → (∀ t, l.discarded t ≤ l'.discarded t) ∧
      (∀ t, l'.discarded t ≠ l.discarded t → t ∈ pubs ∨ sched = some t) ∧
      (∀ t, sched = some t → t ∉ pubs → l'.discarded t = l.discarded t + (lostNow l l' (.loop a)).length) ∧ (sched = none → lostNow l l' (.loop a) = []) := by
    intro e1 e2
    rw [e1, e2]
    exact ⟨fun _ => Nat.le_refl _, fun t h => absurd rfl h, fun t _ _ => rfl, fun _ => rfl⟩
  cases e with
  | refused p t d m h1 h' =>
    have hw := hw p t d h1
    have ed : ∀ u, l'.discarded u = if u = t then l.discarded u + 1 else l.discarded u := by intro u; rw [h']
    have ep : l'.pc p = .idle := by rw [h']; exact upd_same _ _ _
    refine ⟨fun u => by rw [ed]; split <;> omega, fun u hu => ?_, fun u hs hp => ?_, fun hs => ?_⟩
    · rw [ed] at hu
      split at hu
      · rename_i hut; subst hut
        cases d with
        | ev d => exact .inl hw
        | fn f => exact .inr hw
      · exact absurd rfl hu
    · rw [ed]
      cases d with
      | ev d =>
        have : u ≠ t := fun e => hp (e ▸ hw)
        rw [if_neg this]
        simp [lostNow, h1]
      | fn f =>
        simp only at hw
        rw [hs] at hw; cases hw
        simp [lostNow, h1, ep]
    · cases d with
      | ev d => simp [lostNow, h1]
      | fn f => simp only at hw; rw [hs] at hw; cases hw
  | got p t d h1 h2 h' => exact same (by rw [h']) (by simp [lostNow, h1, h'])
  | more p t d m pc' h1 _ _ h' => exact same (by rw [h']) (by simp [lostNow, h1, h'])
  | weak p t d cur h1 _ h' => exact same (by rw [h']) (by simp [lostNow])
  | call | write | publish | start | run | lookNone | look | scan | event | batchEnd | finish | throw | stop =>
    rename l' = _ => h'; exact same (by rw [h']) rfl

/-! ### The invariant -/

theorem el_loop {k : Nat} {c : Bool} {s s' : ElD.St D Nat} {a : EvLoop.Act (ElD.Msg D Nat)} (hs : ElD.step k c s (.loop a) = some s') :
    EvLoop.step k s.loop a = some s'.loop := by
  cases a with
  | advance =>
    simp only [ElD.step] at hs
    split at hs
    · cases hs
    · rename_i l hl
      split at hs <;> cases hs <;> exact hl
  | finish =>
    simp only [ElD.step] at hs
    split at hs
    · obtain ⟨l, hl, rfl⟩ := Option.map_eq_some_iff.mp hs; exact hl
    · cases hs
  | throw => cases hs
  | _ =>
    simp only [ElD.step] at hs
    split at hs
    · obtain ⟨l, hl, rfl⟩ := Option.map_eq_some_iff.mp hs; exact hl
    · cases hs

theorem el_other {k : Nat} {c : Bool} {s s' : ElD.St D Nat} {x : ElD.Act D Nat} (hs : ElD.step k c s x = some s') (hx : ∀ a, x ≠ .loop a) (hc : ∀ r, x ≠ .call r) :
    s'.loop = s.loop := by
  have sub : ∀ {i : Nat} {f : ElD.Sub → Option (ElD.St D Nat)}, (∀ o s', f o = some s' → s'.loop = s.loop) → ElD.withSub s i f = some s' → s'.loop = s.loop := by
    intro i f hf h
    simp only [ElD.withSub] at h
    split at h
    · split at h
      · cases h; rfl
      · exact hf _ _ h
    · cases h; rfl
    · cases h
  match x, hs with
  | .getPublisher n, hs =>
    simp only [ElD.step] at hs
    split at hs <;> cases hs <;> rfl
  | .getSubscriber n kd, hs =>
    simp only [ElD.step] at hs
    (repeat' split at hs) <;> first | (cases hs; done) | (cases hs; rfl)
  | .getScheduler n, hs =>
    simp only [ElD.step] at hs
    split at hs
    · cases hs; rfl
    · split at hs
      · cases hs
        simp only [ElD.makeScheduler]
        split
        · simp only [ElD.destroy]
          split <;> rfl
        · rfl
      · cases hs
  | .reg i l, hs =>
    refine sub (fun o s' h => ?_) hs
    (repeat' split at h) <;> first | (cases h; done) | (cases h; rfl)
  | .once i, hs =>
    refine sub (fun o s' h => ?_) hs
    (repeat' split at h) <;> first | (cases h; done) | (cases h; rfl)
  | .rem i l, hs =>
    refine sub (fun o s' h => ?_) hs
    (repeat' split at h) <;> first | (cases h; done) | (cases h; rfl)
  | .call r, _ => exact absurd rfl (hc r)
  | .loop a, _ => exact absurd rfl (hx a)

theorem el_call {k : Nat} {c : Bool} {s s' : ElD.St D Nat} {r : Bool} (hs : ElD.step k c s (.call r) = some s') :
    s'.loop = s.loop ∨ EvLoop.step k s.loop .throw = some s'.loop := by
  have ht : ∀ {s0 : ElD.St D Nat}, s0.loop = s.loop → ElD.thrown k s0 = some s' → EvLoop.step k s.loop .throw = some s'.loop := by
    intro s0 e h
    simp only [ElD.thrown, Option.map_eq_some_iff] at h
    obtain ⟨l, hl, rfl⟩ := h
    rw [← e]; exact hl
  simp only [ElD.step] at hs
  split at hs
  · split at hs
    · cases hs; exact .inl rfl
    · split at hs
      · exact .inr (ht (by rfl) hs)
      · split at hs
        · split at hs
          · cases hs; exact .inl rfl
          · exact .inr (ht (by rfl) hs)
        · cases hs; exact .inl rfl
  · cases hs

variable [DecidableEq κ]

/-- Steps of the basic scheduler that are not firings. -/
theorem sched_other {s s' : Sched.St κ} (hi : Sched.Inv s) {b : Sched.Act κ} (hs : Sched.step true s b = some s') (h1 : ∀ id, b ≠ .wake id) (h2 : b ≠ .loop) :
    s'.queue = s.queue ∧ ∀ id tk, s.tasks id = some tk → tk.pc = .inTask → b ≠ .finish id → ∃ tk', s'.tasks id = some tk' ∧ tk'.pc = .inTask := by
  unfold Sched.step at hs
  split at hs
  · cases hs
  cases b with
  | start n r =>
    simp only at hs
    split at hs
    · split at hs <;> cases hs
      · exact ⟨rfl, fun id tk h hp _ => ⟨tk, h, hp⟩⟩
      · refine ⟨rfl, fun id tk h hp _ => ⟨tk, ?_, hp⟩⟩
        have := hi.fresh id (by rw [h]; nofun)
        exact (upd_other _ _ (by omega)).trans h
    · cases hs
  | stop n =>
    simp only at hs
    split at hs
    · split at hs
      · cases hs; exact ⟨rfl, fun id tk h hp _ => ⟨tk, h, hp⟩⟩
      · split at hs <;> cases hs
        rename_i i _ _ t ht
        refine ⟨rfl, fun id tk h hp _ => ?_⟩
        by_cases he : id = i
        · subst he
          rw [ht] at h; cases h
          exact ⟨_, upd_same _ _ _, hp⟩
        · exact ⟨tk, (upd_other _ _ he).trans h, hp⟩
    · cases hs
  | joined =>
    simp only at hs
    (repeat' split at hs) <;> first | (cases hs; done) | (cases hs; exact ⟨rfl, fun id tk h hp _ => ⟨tk, h, hp⟩⟩)
  | test i =>
    simp only at hs
    split at hs
    · rename_i t ht
      split at hs <;> cases hs
      rename_i hpc
      refine ⟨rfl, fun id tk h hp _ => ?_⟩
      have : id ≠ i := by rintro rfl; rw [ht] at h; cases h; rw [hpc] at hp; cases hp
      exact ⟨tk, (upd_other _ _ this).trans h, hp⟩
    · cases hs
  | wake i => exact absurd rfl (h1 i)
  | finish i =>
    simp only at hs
    split at hs
    · rename_i t ht
      split at hs <;> cases hs
      refine ⟨rfl, fun id tk h hp hb => ?_⟩
      have : id ≠ i := by rintro rfl; exact hb rfl
      exact ⟨tk, (upd_other _ _ this).trans h, hp⟩
    · cases hs
  | loop => exact absurd rfl h2
  | throws | stopSelf =>
    simp only [Bool.not_true, Bool.and_false, Bool.false_and, Bool.false_eq_true, if_false] at hs
    split at hs <;> cases hs

theorem sched_wake {s s' : Sched.St κ} {id : Nat} (hs : Sched.step true s (.wake id) = some s') :
    s'.queue = s.queue ++ [id] ∧ (∃ tk, s.tasks id = some tk ∧ tk.pc = .sleeping ∧ s'.tasks = upd s.tasks id (some { tk with pc := .inTask })) ∧ s'.ctl = s.ctl := by
  unfold Sched.step at hs
  split at hs
  · cases hs
  simp only at hs
  split at hs
  · rename_i t ht
    split at hs
    · rename_i hpc
      simp only [if_true] at hs
      cases hs
      exact ⟨rfl, ⟨t, ht, hpc, rfl⟩, rfl⟩
    · cases hs
  · cases hs

structure Inv (s : St D κ) : Prop where
  li : LoopInv s.el.loop (fun id => s.sch.queue.count id) s.lost
  busy : ∀ id, s.el.loop.pc (thr id) ≠ .idle → ∃ tk, s.sch.tasks id = some tk ∧ tk.pc = .inTask
  d0 : s.el.sched = none → s.lost = []
  d1 : ∀ t, s.el.sched = some t → s.el.loop.discarded t = s.lost.length
  d2 : ∀ t, s.el.loop.discarded t ≠ 0 → t ∈ s.el.pubs ∨ s.el.sched = some t

theorem Inv.init (kind : ElD.Kind) : Inv (St.init kind : St D κ) where
  li := ⟨by simp [St.init, ElD.St.init, EvLoop.St.init], by simp [St.init, ElD.St.init, EvLoop.St.init],
    by simp [St.init, ElD.St.init, EvLoop.St.init, Sched.St.init, accTasks, undec]⟩
  busy := by simp [St.init, ElD.St.init, EvLoop.St.init]
  d0 := fun _ => rfl
  d1 := by simp [St.init, ElD.St.init]
  d2 := by simp [St.init, ElD.St.init, EvLoop.St.init]

/-- A step of the loop keeps an idle thread of the scheduler idle unless it fires. -/
theorem eff_idle {k : Nat} {l l' : EvLoop.St (ElD.Msg D Nat)} {a : EvLoop.Act (ElD.Msg D Nat)} (e : EvLoop.Eff k l l' a) (hf : free (.loop a : ElD.Act D Nat) = true)
    {id : Nat} (h : l.pc (thr id) = .idle) : l'.pc (thr id) = .idle := by
  cases e with
  | call p t d h1 h' =>
    cases d with
    | fn f => simp [free] at hf
    | ev d =>
      have hp : thr id ≠ p := by
        intro e
        simp only [free, beq_iff_eq] at hf
        simp only [thr] at e
        omega
      rw [h']
      exact (upd_other _ _ hp).trans h
  | got p t d h1 _ h' | refused p t d _ h1 h' | write p t d x h1 _ h' | publish p t d x h1 _ h' =>
    have hp : thr id ≠ p := by rintro rfl; rw [h] at h1; cases h1
    rw [h']
    exact (upd_other _ _ hp).trans h
  | more | weak | start | run | lookNone | look | scan | event | batchEnd | finish | throw | stop =>
    rename l' = _ => h'; rw [h']; exact h

variable [DecidableEq D]

theorem Inv.step {k : Nat} (hk : k ≤ 30) {c : Bool} {kind : ElD.Kind} {s s' : St D κ} (hr : Reach k c kind s) (h : Inv s) {a : Act D κ} (hok : Ok s a)
    (hs : step k c s a = some s') : Inv s' := by
  obtain ⟨A, ls, _, hi⟩ := ElD.Reach.inv hk (ElD.Reach.mono (fun _ _ h => h.1) hr.el)
  have hw : ∀ p t d, s.el.loop.pc p = .claiming t d → match d with | .ev _ => t ∈ s.el.pubs | .fn _ => s.el.sched = some t := by
    intro p t d hp
    have := hi.cl p t d hp
    cases d <;> exact this
  rcases (step_cases hs).2 with ⟨e1, e2, e3⟩ | ⟨id, t, rfl, h1, h2, h3, h4⟩ | ⟨r, rfl, h1, h2, h3⟩ | ⟨x, rfl, hx, h1, h3, h2⟩
  · have hq : s'.sch.queue = s.sch.queue ∧ ∀ id tk, s.sch.tasks id = some tk → tk.pc = .inTask → s.el.loop.pc (thr id) ≠ .idle →
        ∃ tk', s'.sch.tasks id = some tk' ∧ tk'.pc = .inTask := by
      rcases e3 with e3 | ⟨b, b1, b2, b3, b4⟩
      · rw [e3]; exact ⟨rfl, fun id tk h hp _ => ⟨tk, h, hp⟩⟩
      · obtain ⟨q1, q2⟩ := sched_other hr.sch.inv b4 b1 b3
        refine ⟨q1, fun id tk h hp hb => q2 id tk h hp ?_⟩
        intro e
        have := b2 id e
        unfold returned at this
        cases hq : s.el.loop.pc (thr id) with
        | idle => exact hb hq
        | _ => rw [hq] at this; cases this
    refine ⟨?_, ?_, ?_, ?_, ?_⟩
    · rw [e1, e2, hq.1]; exact h.li
    · intro id hid
      rw [e1] at hid
      obtain ⟨tk, g1, g2⟩ := h.busy id hid
      exact hq.2 id tk g1 g2 hid
    · rw [e1, e2]; exact h.d0
    · rw [e1, e2]; exact h.d1
    · rw [e1]; exact h.d2
  · obtain ⟨q1, ⟨tk, q2, q3, q4⟩, _⟩ := sched_wake h3
    have hl := el_loop h4
    have hmaps : s'.el.pubs = s.el.pubs ∧ s'.el.sched = s.el.sched := by
      simp only [ElD.step] at h4
      split at h4
      · obtain ⟨l, _, e⟩ := Option.map_eq_some_iff.mp h4; rw [← e]; exact ⟨rfl, rfl⟩
      · cases h4
    cases EvLoop.step_eff hi.loop.pcInv hl with
    | call _ _ _ p1 p2 =>
    have ep : s'.el.loop.pc = upd s.el.loop.pc (thr id) (.claiming t (.fn id)) := by rw [p2]
    have ea : s'.el.loop.accepted = s.el.loop.accepted := by rw [p2]
    have ed : s'.el.loop.discarded = s.el.loop.discarded := by rw [p2]
    refine ⟨?_, ?_, ?_, ?_, ?_⟩
    · rw [h2]
      refine h.li.fire p1 ep ea (fun i => ?_)
      rw [q1, List.count_append]
      by_cases e : i = id
      · subst e; simp
      · have : List.count i [id] = 0 := List.count_eq_zero.mpr (by simpa using e)
        rw [if_neg e, this]
    · intro i hi'
      rw [q4]
      by_cases e : i = id
      · subst e; exact ⟨_, upd_same _ _ _, rfl⟩
      · rw [ep, upd_other _ _ (fun x => e (thr_inj x))] at hi'
        rw [upd_other _ _ e]
        exact h.busy i hi'
    · rw [hmaps.2, h2]; exact h.d0
    · rw [hmaps.2, h2, ed]; exact h.d1
    · rw [hmaps.1, hmaps.2, ed]; exact h.d2
  · have hmaps : s'.el.pubs = s.el.pubs ∧ s'.el.sched = s.el.sched := by
      rcases step_maps h3 with g | ⟨_, _, n, g⟩ | ⟨_, _, _, n, g, _⟩
      · exact g
      · exfalso
        have ht : ∀ {s0 s1 : ElD.St D Nat}, ElD.thrown k s0 = some s1 → s1.pubs = s0.pubs := by
          intro s0 s1 h
          simp only [ElD.thrown, Option.map_eq_some_iff] at h
          obtain ⟨l, hl, rfl⟩ := h
          rfl
        have : s'.el.pubs = s.el.pubs := by
          clear g
          simp only [ElD.step] at h3
          (repeat' split at h3) <;> first | (cases h3; done) | (have := ht h3; exact this) | (generalize s'.el = z at h3; cases h3; rfl)
        rw [this] at g
        have := congrArg List.length g
        simp at this
      · cases g
    rcases el_call h3 with el | el
    · refine ⟨?_, ?_, ?_, ?_, ?_⟩
      · rw [el, h1, h2]; exact h.li
      · rw [el, h1]; exact h.busy
      · rw [hmaps.2, h2]; exact h.d0
      · rw [hmaps.2, h2, el]; exact h.d1
      · rw [hmaps.1, hmaps.2, el]; exact h.d2
    · have e := EvLoop.step_eff hi.loop.pcInv el
      have hl := h.li.step e rfl
      obtain ⟨_, g2, g3, _⟩ := disc_step e (pubs := s.el.pubs) (sched := s.el.sched) hw
      have hno : lostNow s.el.loop s'.el.loop (.loop .throw) = [] := rfl
      rw [hno] at g3
      refine ⟨?_, ?_, ?_, ?_, ?_⟩
      · rw [h1, h2]; exact hl
      · intro id hid
        rw [h1]
        exact h.busy id fun h0 => hid (eff_idle e rfl h0)
      · rw [hmaps.2, h2]; exact h.d0
      · intro t ht
        rw [hmaps.2] at ht
        rw [h2, g3 t ht (hi.regs.sch t ht).1, h.d1 t ht]; rfl
      · intro t ht
        rw [hmaps.1, hmaps.2]
        by_cases e0 : s'.el.loop.discarded t = s.el.loop.discarded t
        · exact h.d2 t (by rw [← e0]; exact ht)
        · exact g2 t e0
  · by_cases hloop : ∃ y, x = .loop y
    · obtain ⟨y, rfl⟩ := hloop
      have el := el_loop h3
      have e := EvLoop.step_eff hi.loop.pcInv el
      have hl := h.li.step e hx
      obtain ⟨_, g2, g3, g4⟩ := disc_step e (pubs := s.el.pubs) (sched := s.el.sched) hw
      have hmaps : s'.el.pubs = s.el.pubs ∧ s'.el.sched = s.el.sched := by
        rcases step_maps h3 with g | ⟨_, _, n, g⟩ | ⟨_, _, _, n, g, _⟩
        · exact g
        · exfalso
          have : s'.el.pubs = s.el.pubs := by
            clear g
            cases y with
            | advance =>
              simp only [ElD.step] at h3
              split at h3
              · cases h3
              · split at h3 <;> (generalize s'.el = z at h3; cases h3; rfl)
            | finish =>
              simp only [ElD.step] at h3
              split at h3
              · obtain ⟨l, _, e⟩ := Option.map_eq_some_iff.mp h3; rw [← e]
              · cases h3
            | throw => cases h3
            | _ =>
              simp only [ElD.step] at h3
              split at h3
              · obtain ⟨l, _, e⟩ := Option.map_eq_some_iff.mp h3; rw [← e]
              · cases h3
          rw [this] at g
          have := congrArg List.length g
          simp at this
        · cases g
      refine ⟨?_, ?_, ?_, ?_, ?_⟩
      · rw [h1, h2]; exact hl
      · intro id hid
        rw [h1]
        exact h.busy id fun h0 => hid (eff_idle e hx h0)
      · intro hn
        rw [hmaps.2] at hn
        rw [h2, g4 hn, h.d0 hn]; rfl
      · intro t ht
        rw [hmaps.2] at ht
        rw [h2, g3 t ht (hi.regs.sch t ht).1, h.d1 t ht, List.length_append]; omega
      · intro t ht
        rw [hmaps.1, hmaps.2]
        by_cases e0 : s'.el.loop.discarded t = s.el.loop.discarded t
        · exact h.d2 t (by rw [← e0]; exact ht)
        · exact g2 t e0
    · have hc : ∀ r, x ≠ .call r := by rintro r rfl; simp [free] at hx
      have el := el_other h3 (fun y e => hloop ⟨y, e⟩) hc
      have hno : lostNow s.el.loop s'.el.loop x = [] := by
        cases x with
        | loop y => exact absurd ⟨y, rfl⟩ hloop
        | _ => rfl
      rw [hno, List.nil_append] at h2
      have base : LoopInv s'.el.loop (fun id => s'.sch.queue.count id) s'.lost := by rw [el, h1, h2]; exact h.li
      have hbusy : ∀ id, s'.el.loop.pc (thr id) ≠ .idle → ∃ tk, s'.sch.tasks id = some tk ∧ tk.pc = .inTask := by rw [el, h1]; exact h.busy
      rcases step_maps h3 with ⟨g1, g2⟩ | ⟨_, g2, n, g1⟩ | ⟨_, g1, g0, n, rfl, g2⟩
      · exact ⟨base, hbusy, by rw [g2, h2]; exact h.d0, by rw [g2, h2, el]; exact h.d1, by rw [g1, g2, el]; exact h.d2⟩
      · refine ⟨base, hbusy, by rw [g2, h2]; exact h.d0, by rw [g2, h2, el]; exact h.d1, fun t ht => ?_⟩
        rw [el] at ht
        rw [g1, g2]
        rcases h.d2 t ht with h' | h'
        · exact .inl (List.mem_cons_of_mem _ h')
        · exact .inr h'
      · have hok' : ElD.schedName n ∉ s.el.pubs := (hok.1.1 g0).1
        have hl0 := h.d0 g0
        refine ⟨base, hbusy, fun hn => (by rw [g2] at hn; cases hn), fun t ht => ?_, fun t ht => ?_⟩
        · rw [g2] at ht; cases ht
          rw [h2, hl0, el]
          show _ = 0
          apply Classical.byContradiction
          intro hne
          rcases h.d2 _ hne with h' | h'
          · exact hok' h'
          · rw [g0] at h'; cases h'
        · rw [el] at ht
          rcases h.d2 t ht with h' | h'
          · exact .inl (by rw [g1]; exact h')
          · rw [g0] at h'; cases h'

theorem Reach.inv {k : Nat} (hk : k ≤ 30) {c : Bool} {kind : ElD.Kind} {s : St D κ} (h : Reach k c kind s) : Inv s := by
  induction h with
  | init => exact Inv.init kind
  | step hr hok hs ih => exact ih.step hk hr hok hs

end Verif.ElS
