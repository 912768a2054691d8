import Verif.Lemmas.FairExists
import Verif.Spec.NeverStuck
import Verif.Props.MemLive
import Verif.Props.CqLive
import Verif.Props.MemDispatchLive

/-!
C90 for the in-memory middleware: the poller can always go on, and so can every publisher that was woken; fair executions exist from every reachable state.
-/

namespace Verif.MemP
open Verif Verif.SQ Verif.Fair

variable {T : Type} {d : Bool} {n : Nat}

/-- The poller is not among those who wait for room. -/
def NfInv (s : SQ.St T) : Prop := (∀ x ∈ s.wnf, x.1 ≠ 0) ∧ ∀ x ∈ s.knf, x.1 ≠ 0

theorem NfInv.notifyNE {s : SQ.St T} (h : NfInv s) (p : Nat) : NfInv (SQ.notifyNE s p) := by
  unfold SQ.notifyNE
  split <;> exact h

theorem NfInv.notifyNF {s : SQ.St T} (h : NfInv s) (p : Nat) : NfInv (SQ.notifyNF s p) := by
  unfold SQ.notifyNF
  split
  · exact h
  · next c hc =>
    refine ⟨fun x hx => h.1 x (List.mem_of_mem_eraseIdx hx), fun x hx => ?_⟩
    rcases List.mem_append.mp hx with hx | hx
    · exact h.2 x hx
    · simp at hx; subst hx; exact h.1 _ (List.mem_of_getElem? hc)

theorem NfInv.app {s : SQ.St T} (h : NfInv s) (q : List T) : NfInv { s with q := q } := h

theorem NfInv.front {s s' : SQ.St T} {ev : List (Ev T)} {t p : Nat} (h : NfInv s) (hs : SQ.takeFront s t p = .ok s' ev) : NfInv s' := by
  unfold SQ.takeFront at hs
  split at hs <;> cases hs
  exact (h.app _).notifyNF _

theorem NfInv.push {s s' : SQ.St T} {ev : List (Ev T)} {t p : Nat} {x : T} (h : NfInv s) (ht : t ≠ 0) (hs : SQ.bodyPush s t x p = .ok s' ev) : NfInv s' := by
  unfold SQ.bodyPush at hs
  split at hs <;> cases hs
  · exact (h.app _).notifyNE _
  · refine ⟨fun y hy => ?_, h.2⟩
    rcases List.mem_append.mp hy with hy | hy
    · exact h.1 y hy
    · simp at hy; subst hy; exact ht

theorem NfInv.step {s s' : SQ.St T} {b : SQ.Act T} {ev : List (Ev T)} (h : NfInv s) (ha : Allowed d b) (hs : SQ.step s b = .ok s' ev) : NfInv s' := by
  cases b with
  | call t op pick =>
    simp only [SQ.step] at hs
    split at hs
    · cases hs
    cases op with
    | push x => exact h.push ha.2 hs
    | forcePush x =>
      simp only [bodyForcePush] at hs
      cases hs
      exact (h.app _).notifyNE _
    | timedPop tmo =>
      simp only [bodyTimedPop] at hs
      split at hs
      · split at hs <;> cases hs <;> exact h
      · exact h.front hs
    | tryPush x => exact absurd ha id
    | pop => exact absurd ha id
    | tryPop => exact absurd ha id
  | setMax m => exact absurd ha id
  | spuriousNE i =>
    simp only [SQ.step] at hs
    split at hs <;> cases hs
    exact h
  | expireNE i =>
    simp only [SQ.step] at hs
    split at hs
    · cases hs
    split at hs <;> cases hs
    exact h
  | spuriousNF i =>
    simp only [SQ.step] at hs
    split at hs <;> cases hs
    next c hc =>
    refine ⟨fun x hx => h.1 x (List.mem_of_mem_eraseIdx hx), fun x hx => ?_⟩
    rcases List.mem_append.mp hx with hx | hx
    · exact h.2 x hx
    · simp at hx; subst hx; exact h.1 _ (List.mem_of_getElem? hc)
  | resumeNE i late pick =>
    simp only [SQ.step] at hs
    split at hs
    · cases hs
    have h' : ∀ l, NfInv { s with kne := l } := fun _ => h
    simp only [bodyResumeNE] at hs
    split at hs
    · split at hs
      · cases hs; exact h
      · exact (h' _).front hs
    · simp only [bodyPop] at hs
      split at hs
      · cases hs; exact h
      · exact (h' _).front hs
  | resumeNF i pick =>
    simp only [SQ.step] at hs
    split at hs
    · cases hs
    next t x hc =>
    exact NfInv.push (s := { s with knf := s.knf.eraseIdx i }) ⟨h.1, fun y hy => h.2 y (List.mem_of_mem_eraseIdx hy)⟩ (h.2 _ (List.mem_of_getElem? hc)) hs

theorem Reach.nfInv {s : St T} (h : Reach d n s) : NfInv s.bm.sq := by
  induction h with
  | init => exact ⟨nofun, nofun⟩
  | step hr hs ih =>
    rename_i s s' a
    cases step_eff hs with
    | queue ha hb hturn hh hpub hpush hem e =>
      rename_i a b q' ev
      subst e
      obtain ⟨e1, _, _, e4, _⟩ := BM.absorb_spec { s.bm with sq := q' } ev
      dsimp only
      rw [e1]
      exact ih.step ha hb
    | account hx e => subst e; exact ih
    | emit hx e => subst e; exact ih
    | throw hx e => subst e; exact ih
    | restart e => subst e; exact ih

/-- A step of the queue that is possible is a possible step of the middleware. -/
theorem wake_some {s : St T} {b : SQ.Act T} (hw : BM.isWake b = true) {q : SQ.St T} {ev : List (Ev T)} (hs : SQ.step s.bm.sq b = .ok q ev) :
    (step d s (.bm (.wake b))).isSome = true := by
  simp only [step, byPoller, BM.step, hw, hs]
  simp

/-- **C90**: the poller of the in-memory middleware can go on in every reachable state in which its thread runs, whatever the publishers do and whether there are events or not: it asks the
queue, or it comes back from the wait with a time-out, or it calls the listeners.  (It never waits without a limit.) -/
theorem C90_poller {s : St T} (h : Reach d n s) (ha : s.alive = true) : CanMove (step d) (fun _ _ => True) PollTurn s := by
  have hi := h.inv
  have hf := h.nfInv
  cases hw : s.bm.sq.wne with
  | cons c l =>
    have hc := hi.q.wne c (by rw [hw]; exact List.mem_cons_self)
    refine ⟨.bm (.wake (.expireNE 0)), trivial, trivial, ?_⟩
    have e : SQ.step s.bm.sq (.expireNE 0) = .ok { s.bm.sq with wne := l, kne := s.bm.sq.kne ++ [(c, .expired)] } [] := by
      simp only [SQ.step, hw, List.getElem?_cons_zero, hc]
      simp
    exact wake_some rfl e
  | nil =>
  cases hk : s.bm.sq.kne with
  | cons c l =>
    have hc := hi.q.kne c (by rw [hk]; exact List.mem_cons_self)
    refine ⟨.bm (.wake (.resumeNE 0 true 0)), trivial, trivial, ?_⟩
    have e : SQ.step s.bm.sq (.resumeNE 0 true 0) = .ok { s.bm.sq with kne := s.bm.sq.kne.eraseIdx 0 } [.popFailed 0] := by
      simp only [SQ.step, hk, List.getElem?_cons_zero, bodyResumeNE, hc]
      simp
    exact wake_some rfl e
  | nil =>
  cases hh : s.bm.hand with
  | cons x r =>
    refine ⟨.bm .emit, trivial, trivial, ?_⟩
    simp only [step, byPoller, BM.step, hh, ha]
    simp
  | nil =>
    refine ⟨.bm (.poll 0 0), trivial, trivial, ?_⟩
    have hb : ¬ SQ.busy s.bm.sq 0 := by
      unfold SQ.busy
      rw [hw, hk]
      rintro (hb | hb | hb | hb)
      · cases hb
      · cases hb
      · obtain ⟨x, hx, e⟩ := List.mem_map.mp hb
        exact hf.1 x hx e
      · obtain ⟨x, hx, e⟩ := List.mem_map.mp hb
        exact hf.2 x hx e
    have e : ∃ q ev, SQ.step s.bm.sq (.call 0 (.timedPop 0) 0) = .ok q ev := by
      simp only [SQ.step, if_neg hb, bodyTimedPop]
      cases hq : s.bm.sq.q with
      | nil => simp
      | cons x q => simp [takeFront, hq]
    obtain ⟨q, ev, e⟩ := e
    simp only [step, byPoller, BM.step, hh, ha, BM.poller, e]
    simp

/-- **C90**: a publisher that was woken in `publish` can go on. -/
theorem C90_publisher {s : St T} (hk : s.bm.sq.knf ≠ []) : CanMove (step d) (fun _ _ => True) PubTurn s := by
  cases e : s.bm.sq.knf with
  | nil => exact absurd e hk
  | cons c l =>
    obtain ⟨t, x⟩ := c
    refine ⟨.bm (.wake (.resumeNF 0 0)), trivial, trivial, ?_⟩
    have e2 : ∃ q ev, SQ.step s.bm.sq (.resumeNF 0 0) = .ok q ev := by
      simp only [SQ.step, e, List.getElem?_cons_zero, bodyPush]
      split <;> exact ⟨_, _, rfl⟩
    obtain ⟨q, ev, e2⟩ := e2
    exact wake_some rfl e2

/-- **C90**: from every reachable state of the in-memory middleware there is an execution in which the poller, if it runs, is served for ever, woken publishers are served, and no listener
throws: the assumptions of C75 can be met. -/
theorem C90_fair_execution {s : St T} (h : Reach d n s) :
    ∃ (σ : Nat → St T) (α : Nat → Option (Act T)), σ 0 = s ∧ Run d n σ α ∧ PubFair σ α ∧ (s.alive = true → PollAlive σ α 0) ∧ ∀ i, α i ≠ some .throw := by
  obtain ⟨σ, α, h1, h2, h3, h4, h5⟩ := exists_fair (step := step d) (R := Reach d n) (ok := fun _ _ => True)
    (busy := fun t (s : St T) => match t with
      | 0 => s.alive = true
      | _ + 1 => s.bm.sq.knf ≠ []) (own := fun t a => match t with
      | 0 => PollTurn a
      | _ + 1 => PubTurn a)
    (fun s a s' h _ _ hs => h.step hs)
    (fun t s h hb => match t with
      | 0 => C90_poller h hb
      | _ + 1 => C90_publisher hb) s h
  have hno : ∀ i, α i ≠ some .throw := fun i e => by
    obtain ⟨_, t, ho⟩ := h4 _ _ e
    cases t <;> exact ho
  exact ⟨σ, α, h1, ⟨h1 ▸ h, h2⟩, h5 1, fun ha => ⟨by rw [h1]; exact ha, fun j _ => hno j, h5 0⟩, hno⟩

end Verif.MemP

namespace Verif.CqP
open Verif Verif.Fair

variable {T : Type} {d : Bool}

/-- What a thread does here: the poller finds an event if there is one; the queue takes what a publisher brings. -/
def Served (t : Nat) (a : Act T) : Prop :=
  match t with
  | 0 => a = .cq (.poll true) ∨ a = .cq .emit
  | u + 1 => a = .cq (.enq u true) ∨ a = .cq (.rem u true)

/-- **C90**: the poller of the middleware on the concurrent queue can go on whenever its thread runs. -/
theorem C90_poller (s : St T) (ha : s.alive = true) : CanMove (step d) (fun _ _ => True) (Served 0) s := by
  cases h : s.cq.hand with
  | nil =>
    refine ⟨.cq (.poll true), .inl rfl, trivial, ?_⟩
    simp only [step, ha, CQ.step, h]
    cases s.cq.q <;> simp
  | cons x l =>
    refine ⟨.cq .emit, .inr rfl, trivial, ?_⟩
    simp only [step, ha, CQ.step, h]
    simp

/-- **C90**: a publisher in the loop of `publish` can go on. -/
theorem C90_publisher (s : St T) {t : Nat} {x : T} (h : s.Trying t x) : CanMove (step d) (fun _ _ => True) (Served (t + 1)) s := by
  obtain ⟨n, h | h⟩ := h
  · refine ⟨.cq (.enq t true), .inl rfl, trivial, ?_⟩
    simp only [step, byPoller, CQ.step, h]
    simp
  · refine ⟨.cq (.rem t true), .inr rfl, trivial, ?_⟩
    simp only [step, byPoller, CQ.step, h]
    cases s.cq.q <;> simp

theorem Alone.calm {s : St T} (h : Alone s) : ¬ s.cq.TokenRace := by
  rintro ⟨t, u, x, n, y, m, hne, h1, h2⟩
  exact hne (h t u x y ⟨n, .inl h1⟩ ⟨m, .inl h2⟩)

theorem Alone.step {s s' : St T} {a : Act T} (h : Alone s) (ha : ∃ t, Served t a) (hs : step d s a = some s') : Alone s' := by
  have key : ∀ t x, s'.Trying t x → ∃ x, s.Trying t x := by
    intro t x hx
    obtain ⟨u, ha⟩ := ha
    have : ∀ w pc', s'.cq.pc = upd s.cq.pc w pc' → (∃ x, s.Trying w x) → ∃ x, s.Trying t x := by
      intro w pc' e hw
      by_cases htw : t = w
      · rw [htw]; exact hw
      · obtain ⟨n, hx⟩ := hx
        rw [e, upd_other _ _ htw] at hx
        exact ⟨x, n, hx⟩
    have same : s'.cq.pc = s.cq.pc → ∃ x, s.Trying t x := fun e => by
      obtain ⟨n, hx⟩ := hx
      rw [e] at hx
      exact ⟨x, n, hx⟩
    cases u with
    | zero =>
      rcases ha with rfl | rfl
      · simp only [CqP.step, CQ.step] at hs
        (repeat' split at hs) <;> cases hs <;> rename_i heq <;> (repeat' split at heq) <;> cases heq <;> exact same rfl
      · simp only [CqP.step, CQ.step] at hs
        (repeat' split at hs) <;> cases hs <;> rename_i heq <;> (repeat' split at heq) <;> cases heq <;> exact same rfl
    | succ u =>
      rcases ha with rfl | rfl
      · simp only [CqP.step, CQ.step] at hs
        split at hs
        · cases hs
        · match hp : s.cq.pc u with
          | .enq y m =>
            rw [hp] at hs
            simp only [if_true] at hs
            cases hs
            exact this u _ rfl ⟨y, m, .inl hp⟩
          | .idle => rw [hp] at hs; cases hs
          | .rem y m => rw [hp] at hs; cases hs
          | .acct m => rw [hp] at hs; cases hs
      · simp only [CqP.step, CQ.step] at hs
        split at hs
        · cases hs
        · match hp : s.cq.pc u with
          | .rem y m =>
            rw [hp] at hs
            match hq : s.cq.q with
            | [] => rw [hq] at hs; cases hs; exact this u _ rfl ⟨y, m, .inr hp⟩
            | z :: q => rw [hq] at hs; cases hs; exact this u _ rfl ⟨y, m, .inr hp⟩
          | .idle => rw [hp] at hs; cases hs
          | .enq y m => rw [hp] at hs; cases hs
          | .acct m => rw [hp] at hs; cases hs
  intro t u x y h1 h2
  obtain ⟨x', h1⟩ := key t x h1
  obtain ⟨y', h2⟩ := key u y h2
  exact h t u x' y' h1 h2

/-- **C90**: from every reachable state of the middleware on the concurrent queue in which at most one thread publishes there is an execution in which the poller, if it runs, and the
publisher are served for ever, the queue is honest and no listener throws: the assumptions of C77 can be met. -/
theorem C90_fair_execution {s : St T} (h : Reach d s) (hone : Alone s) :
    ∃ (σ : Nat → St T) (α : Nat → Option (Act T)), σ 0 = s ∧ Run d σ α ∧ (∀ t, TryFair t σ α) ∧ (s.alive = true → PollAlive σ α 0) ∧ ∀ i, α i ≠ some .throw := by
  obtain ⟨σ, α, h1, h2, h3, h4, h5⟩ := exists_fair (step := step d) (R := fun s => Reach d s ∧ Alone s) (ok := fun _ _ => True)
    (busy := fun t (s : St T) => match t with
      | 0 => s.alive = true
      | u + 1 => ∃ x, s.Trying u x) (own := Served)
    (fun s a s' h ho _ hs => ⟨h.1.step h.2.calm hs, h.2.step ho hs⟩)
    (fun t s h hb => match t with
      | 0 => C90_poller s hb
      | _ + 1 => C90_publisher s hb.choose_spec) s ⟨h, hone⟩
  have hno : ∀ {j a}, α j = some a → (∀ t, ¬ Served t a) → False := fun e h => by
    obtain ⟨_, t, ho⟩ := h4 _ _ e
    exact h t ho
  have hthrow : ∀ i, α i ≠ some .throw := fun i e => hno e fun t ho => by
    cases t <;> (rcases ho with ho | ho <;> cases ho)
  have hpoll : ∀ {j b}, α j = some (.cq (.poll b)) → b = true := fun e => by
    obtain ⟨_, t, ho⟩ := h4 _ _ e
    cases t <;> (rcases ho with ho | ho <;> cases ho); rfl
  have henq : ∀ {j u b}, α j = some (.cq (.enq u b)) → b = true := fun e => by
    obtain ⟨_, t, ho⟩ := h4 _ _ e
    cases t <;> (rcases ho with ho | ho <;> cases ho); rfl
  have hrem : ∀ {j u b}, α j = some (.cq (.rem u b)) → b = true := fun e => by
    obtain ⟨_, t, ho⟩ := h4 _ _ e
    cases t <;> (rcases ho with ho | ho <;> cases ho); rfl
  refine ⟨σ, α, h1, ⟨h1 ▸ h, h2, fun i => (h3 i).2.calm⟩, fun t => ⟨?_, ?_, ?_⟩, fun ha => ⟨by rw [h1]; exact ha, fun j _ => hthrow j, ?_, ?_⟩, hthrow⟩
  · intro i hb
    obtain ⟨j, hj, a, ha, ho⟩ := h5 (t + 1) i hb
    refine ⟨j, hj, a, ha, ?_⟩
    rcases ho with rfl | rfl <;> rfl
  · intro k _ hl
    obtain ⟨j, hj, b, hb⟩ := hl k (Nat.le_refl k)
    exact ⟨j, hj, by rw [hb, henq hb]⟩
  · intro k _ hl
    obtain ⟨j, hj, b, hb⟩ := hl k (Nat.le_refl k)
    exact ⟨j, hj, by rw [hb, hrem hb]⟩
  · intro i hb
    obtain ⟨j, hj, a, ha, ho⟩ := h5 0 i hb
    refine ⟨j, hj, a, ha, ?_⟩
    rcases ho with rfl | rfl <;> trivial
  · intro k _ hl
    obtain ⟨j, hj, b, hb⟩ := hl k (Nat.le_refl k)
    exact ⟨j, hj, by rw [hb, hpoll hb]⟩

end Verif.CqP

namespace Verif.MemD
open Verif ElD Verif.Fair

variable {D : Type} [DecidableEq D]

/-- The polling thread in the queue; the concurrent queue is honest. -/
def Mdlw.serves : (m : Mdlw) → (m.chan D).Act → Prop
  | .basic .., a => MemP.PollTurn (a : MemP.Act D)
  | .concurrent _, a => (a : CqP.Act D) = .cq (.poll true)

/-- The polling thread; no listener throws. -/
def Mdlw.serve (m : Mdlw) : Act (m.chan D) → Prop
  | .ch a => m.serves a
  | .take | .fin => True
  | .call r => r = true
  | _ => False

omit [DecidableEq D] in
theorem Mdlw.serve_turn {m : Mdlw} {a : Act (m.chan D)} (h : m.serve a) : m.turn a := by
  cases a with
  | ch a =>
    cases m with
    | basic d n => exact h
    | concurrent d => cases (show (a : CqP.Act D) = .cq (.poll true) from h); trivial
  | take => trivial
  | fin => trivial
  | call r => trivial
  | _ => exact h

variable {m : Mdlw} {n : String} {c : Bool} {kind : Kind}

/-- **C90**: the polling thread of an in-memory middleware, with its listeners, can go on in every reachable state in which it runs, whatever other threads do (registering, removing,
publishing), also if no listener throws. -/
theorem C90_poller {s : St (m.chan D)} (h : Reach n c kind s) (hm : (m.chan D).may s.ch) (ha : (m.chan D).alive s.ch = true) : CanMove (step n c) Ok m.serve s := by
  obtain ⟨x, ls, _, hi⟩ := h.inv m.lawful
  match hd : s.del with
  | none =>
    match hh : (m.chan D).hand s.ch with
    | some d => exact ⟨.take, trivial, hm, by simp only [step, hd, hh, ha]; rfl⟩
    | none =>
      have hr := h.ch
      cases m with
      | basic dd k =>
        obtain ⟨a, h1, _, h2⟩ := MemP.C90_poller (ChReach.basic hr) ha
        refine ⟨.ch a, h1, hm, ?_⟩
        have hhand : (MemP.St.bm s.ch).hand = [] := List.head?_eq_none_iff.mp hh
        have ho : ((Mdlw.basic dd k).chan D).own a = false := by
          match a, h1, h2 with
          | .bm .emit, _, h2 => simp [MemP.step, BM.step, hhand] at h2
          | .bm (.poll ..), _, _ => rfl
          | .bm (.wake _), _, _ => rfl
        have h2 : (((Mdlw.basic dd k).chan D).step s.ch a).isSome = true := h2
        simp only [step, ho]
        simpa using h2
      | concurrent dd =>
        have hhand : (CqP.St.cq s.ch).hand = [] := List.head?_eq_none_iff.mp hh
        have h2 : (((Mdlw.concurrent dd).chan D).step s.ch (.cq (.poll true) : CqP.Act D)).isSome = true := by
          show (CqP.step dd s.ch (.cq (.poll true))).isSome = true
          have ha : CqP.St.alive s.ch = true := ha
          simp only [CqP.step, ha, CQ.step, hhand]
          cases (CqP.St.cq s.ch).q <;> simp
        refine ⟨.ch (.cq (.poll true) : CqP.Act D), rfl, hm, ?_⟩
        have ho : ((Mdlw.concurrent dd).chan D).own (.cq (.poll true) : CqP.Act D) = false := rfl
        simp only [step, ho]
        simpa using h2
  | some (d, []) =>
    obtain ⟨h1, h2⟩ := hi.hand d _ hd
    obtain ⟨⟨s', h3⟩, _⟩ := m.lawful.can _ _ h2 h1
    exact ⟨.fin, trivial, hm, by simp only [step, hd, h3]; rfl⟩
  | some (d, t :: rest) =>
    obtain ⟨h1, h2⟩ := hi.hand d _ hd
    obtain ⟨_, s', h3⟩ := m.lawful.can _ _ h2 h1
    refine ⟨.call true, rfl, hm, ?_⟩
    simp only [step, hd]
    rw [if_neg (by simp)]
    split
    · split
      · rfl
      · simp only [thrown, h3]; rfl
    · rfl

/-- The condition of the concurrent middleware does not depend on the poller. -/
theorem may_serve {s s' : St (m.chan D)} (h : Reach n c kind s) (hm : (m.chan D).may s.ch) {a : Act (m.chan D)} (ha : m.serve a) (hs : step n c s a = some s') :
    (m.chan D).may s'.ch := by
  have hp := step_proj m.lawful h (by rintro rfl; cases ha) hs
  cases m with
  | basic dd k => trivial
  | concurrent dd =>
    have same : ∀ {b : CqP.Act D}, b = .cq (.poll true) ∨ b = .cq .emit → CqP.step dd s.ch b = some s'.ch → (CqP.St.cq s'.ch).pc = (CqP.St.cq s.ch).pc := by
      intro b hb hs
      generalize s'.ch = t at hs
      have hs : CqP.step dd (s.ch : CqP.St D) b = some (t : CqP.St D) := hs
      rcases hb with rfl | rfl
      · simp only [CqP.step, CQ.step] at hs
        (repeat' split at hs) <;> cases hs <;> rename_i heq <;> (repeat' split at heq) <;> cases heq <;> rfl
      · simp only [CqP.step, CQ.step] at hs
        (repeat' split at hs) <;> cases hs <;> rename_i heq <;> (repeat' split at heq) <;> cases heq <;> rfl
    have fin : (CqP.St.cq s'.ch).pc = (CqP.St.cq s.ch).pc → ¬ (CqP.St.cq s'.ch).TokenRace := by
      rintro e ⟨t, u, x, i, y, j, h0, h1, h2⟩
      rw [e] at h1 h2
      exact hm ⟨t, u, x, i, y, j, h0, h1, h2⟩
    cases a with
    | ch b => exact fin (same (.inl ha) hp)
    | fin => exact fin (same (.inr rfl) hp)
    | take => have hp : s'.ch = s.ch := hp; rw [hp]; exact hm
    | call r => have hp : s'.ch = s.ch := hp; rw [hp]; exact hm
    | _ => exact ha.elim

/-- **C90**: from every reachable state of an in-memory middleware with its listeners there is an execution in which the polling thread is served for ever, no listener throws and the queue is
honest: the assumptions of C81 can be met. -/
theorem C90_fair_execution {s : St (m.chan D)} (h : Reach n c kind s) (hm : (m.chan D).may s.ch) (ha : (m.chan D).alive s.ch = true) :
    ∃ (σ : Nat → St (m.chan D)) (α : Nat → Option (Act (m.chan D))), σ 0 = s ∧ Run (m.chan D) n c kind σ α ∧ PollAlive m σ α 0 := by
  obtain ⟨σ, α, h1, h2, h3, h4, h5⟩ := exists_fair (step := step n c) (R := fun s : St (m.chan D) => Reach n c kind s ∧ (m.chan D).may s.ch) (ok := Ok)
    (busy := fun _ s => (m.chan D).alive s.ch = true) (own := fun _ => m.serve)
    (fun s a s' h ho hok hs => ⟨h.1.step hok hs, by obtain ⟨t, ho⟩ := ho; exact may_serve h.1 h.2 ho hs⟩)
    (fun t s h hb => C90_poller h.1 h.2 hb) s ⟨h, hm⟩
  refine ⟨σ, α, h1, ⟨h1 ▸ h, h2, fun i a e => (h4 i a e).1, fun i => (h3 i).2⟩, ⟨by rw [h1]; exact ha, ?_, ?_, ?_⟩⟩
  · intro j _ e
    obtain ⟨_, _, ho⟩ := h4 _ _ e
    cases ho
  · intro i hb
    obtain ⟨j, hj, a, e, ho⟩ := h5 0 i hb
    exact ⟨j, hj, a, e, Mdlw.serve_turn ho⟩
  · cases m with
    | basic dd k => trivial
    | concurrent dd =>
      intro k _ hl
      obtain ⟨j, hj, b, hb⟩ := hl k (Nat.le_refl k)
      obtain ⟨_, _, ho⟩ := h4 _ _ hb
      have ho : (CqP.Act.cq (.poll b) : CqP.Act D) = .cq (.poll true) := ho
      cases ho
      exact ⟨j, hj, hb⟩

end Verif.MemD
