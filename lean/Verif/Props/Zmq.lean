import Verif.Model.Zmq

/-! Properties of topic dispatch (C51). -/

namespace Verif.Zmq
open Verif

variable {F β : Type} [DecidableEq F]

theorem registeredFor_snoc (t : F) (h : List (Ev F β)) (e : Ev F β) :
    registeredFor t (h ++ [e]) = e.effect t (registeredFor t h) := by
  simp [registeredFor]

theorem messages_append (a b : List (Ev F β)) : messages (a ++ b) = messages a ++ messages b := by
  induction a with
  | nil => rfl
  | cons e a ih => cases e <;> simp [messages, ih]

/-- Every dispatch of a history went to the function registered at that moment. -/
def WellDispatched (h : List (Ev F β)) : Prop :=
  ∀ h1 t c r h2, h = h1 ++ .dispatched t c r :: h2 → r = registeredFor t h1

theorem WellDispatched.snoc {h : List (Ev F β)} (hw : WellDispatched h) (e : Ev F β)
    (he : ∀ t c r, e = .dispatched t c r → r = registeredFor t h) : WellDispatched (h ++ [e]) := by
  intro h1 t c r h2 heq
  rcases List.eq_nil_or_concat h2 with rfl | ⟨h2', x, rfl⟩
  · have := List.append_inj' heq rfl
    obtain ⟨rfl, h⟩ := this
    exact he t c r (List.cons.inj h).1
  · have heq' : h ++ [e] = (h1 ++ .dispatched t c r :: h2') ++ [x] := by simpa using heq
    have := List.append_inj' heq' rfl
    exact hw h1 t c r h2' this.1

/-- Frames in the hands of the polling thread. -/
def PollPc.held : PollPc F β → List F
  | .haveTopic t => [t]
  | .have2 t c => [t, c]
  | _ => []

def PollPc.inside : PollPc F β → Bool
  | .calling _ _ _ => true
  | .relock => true
  | _ => false

structure Inv (s : St F β) : Prop where
  map : ∀ t, s.map t = registeredFor t s.hist
  disp : WellDispatched s.hist
  frames : s.arrived = framesOf (messages s.hist) ++ s.poll.held ++ s.frames
  lock : s.locked = s.poll.inside
  calling : ∀ t c f, s.poll = .calling t c f → s.map t = some f

omit [DecidableEq F] in
theorem framesOf_append (a b : List (F × F)) : framesOf (a ++ b) = framesOf a ++ framesOf b := by simp [framesOf]

theorem Inv.init : Inv (St.init : St F β) := by
  constructor
  · intro t; rfl
  · intro h1 t c r h2 h
    simp [St.init] at h
  · rfl
  · rfl
  · intro t c f h; cases h

theorem Inv.step {s s' : St F β} (h : Inv s) (a : Act F β) (hs : step s a = some s') : Inv s' := by
  cases a with
  | arrive ps =>
    cases hs
    exact ⟨h.map, h.disp, by simp [h.frames], h.lock, h.calling⟩
  | recvTopic =>
    simp only [Zmq.step] at hs
    split at hs <;> try cases hs
    rename_i t r hp hf
    split at hs <;> cases hs
    refine ⟨h.map, h.disp, ?_, ?_, ?_⟩
    · have := h.frames; rw [hp, hf] at this; simpa [PollPc.held] using this
    · have := h.lock; rw [hp] at this; simpa [PollPc.inside] using this
    · intro t c f hc; cases hc
  | recvContent =>
    simp only [Zmq.step] at hs
    split at hs <;> cases hs
    rename_i t c r hp hf
    refine ⟨h.map, h.disp, ?_, ?_, ?_⟩
    · have := h.frames; rw [hp, hf] at this; simpa [PollPc.held] using this
    · have := h.lock; rw [hp] at this; simpa [PollPc.inside] using this
    · intro t c f hc; cases hc
  | execute =>
    simp only [Zmq.step] at hs
    split at hs <;> try cases hs
    rename_i t c hp
    split at hs <;> try cases hs
    split at hs <;> cases hs
    · rename_i f hm
      refine ⟨?_, ?_, ?_, rfl, ?_⟩
      · intro t'; rw [registeredFor_snoc]; exact h.map t'
      · apply h.disp.snoc
        intro t' c' r he; cases he
        rw [← h.map, hm]
      · have := h.frames; rw [hp] at this
        simpa [messages_append, framesOf_append, messages, framesOf, PollPc.held] using this
      · intro t' c' f' he; cases he; exact hm
    · rename_i hm
      refine ⟨?_, ?_, ?_, ?_, ?_⟩
      · intro t'; rw [registeredFor_snoc]; exact h.map t'
      · apply h.disp.snoc
        intro t' c' r he; cases he
        rw [← h.map, hm]
      · have := h.frames; rw [hp] at this
        simpa [messages_append, framesOf_append, messages, framesOf, PollPc.held] using this
      · have := h.lock; rw [hp] at this; simpa [PollPc.inside] using this
      · intro t' c' f' he; cases he
  | «return» =>
    simp only [Zmq.step] at hs
    split at hs <;> cases hs
    rename_i t c f hp
    refine ⟨h.map, h.disp, ?_, rfl, ?_⟩
    · have := h.frames; rw [hp] at this; simpa [PollPc.held] using this
    · intro t c f hc; cases hc
  | reenter =>
    simp only [Zmq.step] at hs
    split at hs <;> cases hs
    rename_i t c f hp
    refine ⟨h.map, h.disp, ?_, ?_, ?_⟩
    · have := h.frames; rw [hp] at this; simpa [PollPc.held] using this
    · have := h.lock; rw [hp] at this; simpa [PollPc.inside] using this
    · intro t c f hc; cases hc
  | stop => cases hs; exact ⟨h.map, h.disp, h.frames, h.lock, h.calling⟩
  | throw =>
    simp only [Zmq.step] at hs
    split at hs <;> cases hs
    rename_i t c f hp
    refine ⟨h.map, h.disp, ?_, rfl, ?_⟩
    · have := h.frames; rw [hp] at this; simpa [PollPc.held] using this
    · intro t c f hc; cases hc
  | start =>
    simp only [Zmq.step] at hs
    split at hs <;> try cases hs
    rename_i hp
    split at hs <;> cases hs
    refine ⟨h.map, h.disp, ?_, ?_, ?_⟩
    · have := h.frames; rw [hp] at this; simpa [PollPc.held] using this
    · have := h.lock; rw [hp] at this; simpa [PollPc.inside] using this
    · intro t c f hc; cases hc
  | exit =>
    simp only [Zmq.step] at hs
    split at hs <;> try cases hs
    rename_i hp
    split at hs <;> cases hs
    refine ⟨h.map, h.disp, ?_, ?_, ?_⟩
    · have := h.frames; rw [hp] at this; simpa [PollPc.held] using this
    · have := h.lock; rw [hp] at this; simpa [PollPc.inside] using this
    · intro t c f hc; cases hc
  | callReg u t f =>
    simp only [Zmq.step] at hs
    split at hs <;> cases hs
    exact ⟨h.map, h.disp, h.frames, h.lock, h.calling⟩
  | callUnreg u t =>
    simp only [Zmq.step] at hs
    split at hs <;> cases hs
    exact ⟨h.map, h.disp, h.frames, h.lock, h.calling⟩
  | doReg u =>
    simp only [Zmq.step] at hs
    split at hs <;> try cases hs
    rename_i t f hc
    split at hs <;> cases hs
    rename_i hl
    refine ⟨?_, ?_, ?_, h.lock, ?_⟩
    · intro t'
      rw [registeredFor_snoc]
      simp only [upd_apply, Ev.effect, ← h.map t', eq_comm]
    · exact h.disp.snoc _ (by intro t c r he; cases he)
    · simpa [messages_append, messages] using h.frames
    · intro t' c' f' hp
      have := h.lock
      simp only at hp
      rw [hp] at this
      simp [this, PollPc.inside] at hl
  | doUnreg u =>
    simp only [Zmq.step] at hs
    split at hs <;> try cases hs
    rename_i t hc
    split at hs <;> cases hs
    rename_i hl
    refine ⟨?_, ?_, ?_, h.lock, ?_⟩
    · intro t'
      rw [registeredFor_snoc]
      simp only [upd_apply, Ev.effect, ← h.map t', eq_comm]
    · exact h.disp.snoc _ (by intro t c r he; cases he)
    · simpa [messages_append, messages] using h.frames
    · intro t' c' f' hp
      have := h.lock
      simp only at hp
      rw [hp] at this
      simp [this, PollPc.inside] at hl

theorem Reach.inv {s : St F β} (h : Reach s) : Inv s := by
  induction h with
  | init => exact Inv.init
  | step a _ hs ih => exact ih.step a hs

/-! ### C51 -/

/-- **C51**, dispatch: in every execution every message is given to the function registered for its topic at that moment (the last
registration not unregistered since), and to none if there is none. -/
theorem C51_dispatch {s : St F β} (h : Reach s) (h1 h2 : List (Ev F β)) (t c : F) (r : Option β)
    (he : s.hist = h1 ++ .dispatched t c r :: h2) : r = registeredFor t h1 :=
  h.inv.disp h1 t c r h2 he

/-- **C51**, unregistering: a function runs only while it is the one registered for its topic; so when `unregisterFromTopic` (or a
registration of another function) has returned, the function is not running and will not be called for the topic. -/
theorem C51_running_is_registered {s : St F β} (h : Reach s) {t c : F} {f : β} (hp : s.poll = .calling t c f) :
    registeredFor t s.hist = some f := by
  rw [← h.inv.map]; exact h.inv.calling t c f hp

/-- The messages dispatched are the frames received, cut in pairs; nothing is lost, repeated or reordered. -/
theorem C51_frames_in_pairs {s : St F β} (h : Reach s) :
    s.arrived = framesOf (messages s.hist) ++ s.poll.held ++ s.frames := h.inv.frames

omit [DecidableEq F] in
theorem pairUp_framesOf (ms : List (F × F)) (r : List F) : pairUp (framesOf ms ++ r) = ms ++ pairUp r := by
  induction ms with
  | nil => rfl
  | cons m ms ih =>
    have : framesOf (m :: ms) ++ r = m.1 :: m.2 :: (framesOf ms ++ r) := by simp [framesOf]
    rw [this, pairUp, ih]; rfl

/-- **C51**, order: if every message that arrived has two parts, the messages dispatched are exactly the first ones that arrived,
in order of arrival, each once.
Missing: messages with another number of parts, `C51_violation_one_part`; registering again through the channel,
`C51_violation_register_again`. -/
theorem C51_arrival_order_partial {s : St F β} (h : Reach s) (ms : List (F × F)) (ha : s.arrived = framesOf ms) :
    messages s.hist <+: ms ∧ (s.poll.held = [] → s.frames = [] → messages s.hist = ms) := by
  have hf := h.inv.frames
  rw [ha] at hf
  have hp := congrArg pairUp hf
  have e : pairUp (framesOf ms) = ms := by have := pairUp_framesOf ms []; simpa [pairUp] using this
  rw [e, List.append_assoc, pairUp_framesOf] at hp
  refine ⟨⟨_, hp.symm⟩, ?_⟩
  intro h1 h2
  rw [h1, h2] at hp
  simpa [pairUp] using hp.symm

/-- No deadlock: a client that waits for the mutex can go on at once, or the polling thread is inside a function and can leave it,
unless the function has called back into the poller. -/
theorem C51_no_deadlock {s : St F β} (h : Reach s) (hr : s.poll ≠ .relock) :
    (∀ u, s.client u ≠ .idle → (step s (.doReg u)).isSome ∨ (step s (.doUnreg u)).isSome ∨ (step s .return).isSome) ∧
    (∀ t c, s.poll = .have2 t c → (step s .execute).isSome) := by
  have hl := h.inv.lock
  constructor
  · intro u hu
    cases hlk : s.locked with
    | true =>
      rw [hlk] at hl
      right; right
      cases hp : s.poll <;> rw [hp] at hl <;> simp [PollPc.inside] at hl
      · simp [step, hp]
      · exact absurd hp hr
    | false =>
      cases hc : s.client u with
      | idle => exact absurd hc hu
      | reg t f => left; simp [step, hc, hlk]
      | unreg t => right; left; simp [step, hc, hlk]
  · intro t c hp
    rw [hp] at hl
    simp only [PollPc.inside] at hl
    cases hm : s.map t <;> simp [step, hp, hl, hm]

/-- A call of `registerToTopic` or `unregisterFromTopic` that gets the mutex returns, and what it asks for holds then; nothing else is changed. -/
theorem C51_call_returns {s s' : St F β} (u : Nat) :
    (∀ t f, s.client u = .reg t f → step s (.doReg u) = some s' → s'.client u = .idle ∧ s'.map t = some f ∧ (∀ t', t' ≠ t → s'.map t' = s.map t') ∧
      (∀ v, v ≠ u → s'.client v = s.client v) ∧ s'.poll = s.poll ∧ s'.frames = s.frames) ∧
    (∀ t, s.client u = .unreg t → step s (.doUnreg u) = some s' → s'.client u = .idle ∧ s'.map t = none ∧ (∀ t', t' ≠ t → s'.map t' = s.map t') ∧
      (∀ v, v ≠ u → s'.client v = s.client v) ∧ s'.poll = s.poll ∧ s'.frames = s.frames) := by
  constructor
  · intro t f hc hs
    simp only [step, hc] at hs
    split at hs
    · cases hs
    · cases hs
      exact ⟨upd_same _ _ _, upd_same _ _ _, fun t' h => upd_other _ _ h, fun v h => upd_other _ _ h, rfl, rfl⟩
  · intro t hc hs
    simp only [step, hc] at hs
    split at hs
    · cases hs
    · cases hs
      exact ⟨upd_same _ _ _, upd_same _ _ _, fun t' h => upd_other _ _ h, fun v h => upd_other _ _ h, rfl, rfl⟩

/-- A function that calls `registerToTopic` or `unregisterFromTopic` of its own poller never returns: from then on no message is
dispatched and no registration takes effect, in any continuation. -/
theorem C51_violation_reentrant_registration {s : St F β} (h : Reach s) (hp : s.poll = .relock) (as : List (Act F β)) (s' : St F β)
    (hs : run s as = some s') : s'.poll = .relock ∧ s'.hist = s.hist := by
  have hl : s.locked = true := by rw [h.inv.lock, hp]; rfl
  have key : ∀ (as : List (Act F β)) (s : St F β), s.poll = .relock → s.locked = true → run s as = some s' →
      s'.poll = .relock ∧ s'.hist = s.hist := by
    intro as
    induction as with
    | nil => intro s hp hl hs; cases hs; exact ⟨hp, rfl⟩
    | cons a as ih =>
      intro s hp hl hs
      simp only [run] at hs
      split at hs
      · cases hs
      rename_i s1 hs1
      have : s1.poll = .relock ∧ s1.locked = true ∧ s1.hist = s.hist := by
        cases a <;> simp only [step, hp, hl] at hs1 <;> (repeat' split at hs1) <;> (try cases hs1) <;>
          (try exact ⟨hp, hl, rfl⟩) <;> simp_all
      obtain ⟨h1, h2, h3⟩ := this
      rw [← h3]
      exact ih s1 h1 h2 hs
  exact key as s hp hl hs

/-- Such a state is reached: a function is registered, a message for it arrives, the function calls back. -/
theorem C51_reentrant_example : ((run (St.init : St Nat Nat)
    [.callReg 0 1 7, .doReg 0, .arrive [1, 5], .recvTopic, .recvContent, .execute, .reenter]).map
      (fun s => (s.poll, s.locked))) = some (.relock, true) := by decide +kernel

/-- **C51** fails: after one message of one part (topic 9) all later messages are taken apart wrongly: the content is taken for the
topic.  Here function 7, registered for topic 1, gets the *topic* of the next message. -/
theorem C51_violation_one_part : ((run (St.init : St Nat Nat)
    ([.callReg 0 1 7, .doReg 0, .callReg 0 5 8, .doReg 0, .arrive [9], .arrive [1, 5], .arrive [1, 6], .arrive [2, 3]] ++
      [.recvTopic, .recvContent, .execute, .recvTopic, .recvContent, .execute, .return, .recvTopic, .recvContent, .execute])).map
      (fun s => s.hist)) =
    some [.registered 1 7, .registered 5 8, .dispatched 9 1 none, .dispatched 5 1 (some 8), .dispatched 6 2 none] := by
  decide +kernel

/-- A run that meets the hypotheses. -/
theorem C51_example : ((run (St.init : St Nat Nat)
    ([.callReg 0 1 7, .doReg 0, .callReg 3 2 8, .arrive [1, 5], .arrive [2, 6], .recvTopic, .recvContent, .execute, .callUnreg 0 1,
      .return, .doUnreg 0, .doReg 3, .recvTopic, .recvContent, .execute, .return, .arrive [1, 5], .recvTopic, .recvContent,
      .execute, .stop, .exit] : List (Act Nat Nat))).map
      (fun s => (s.hist, s.arrived, s.poll))) =
    some ([.registered 1 7, .dispatched 1 5 (some 7), .unregistered 1, .registered 2 8, .dispatched 2 6 (some 8),
      .dispatched 1 5 none], framesOf [(1, 5), (2, 6), (1, 5)], .exited) := by
  decide +kernel

/-! ### The channel -/

/-- The publisher that must get messages of topic `t` after a series of calls. -/
def current (t : F) (ops : List (COp F β)) : Option β :=
  ops.foldl (fun r o => match o with
    | .reg t' p => if t' = t then some p else r
    | .unreg t' => if t' = t then none else r
    | .msg _ _ => r) none

/-- What must be published: every message by the publisher registered at that moment. -/
def wanted : List (COp F β) → List (COp F β) → List (β × F)
  | _, [] => []
  | before, .msg t c :: ops => ((current t before).map (fun p => (p, c))).toList ++ wanted (before ++ [.msg t c]) ops
  | before, o :: ops => wanted (before ++ [o]) ops

def regTopics : List (COp F β) → List F
  | [] => []
  | .reg t _ :: ops => t :: regTopics ops
  | _ :: ops => regTopics ops

omit [DecidableEq F] in
theorem regTopics_append (a b : List (COp F β)) : regTopics (a ++ b) = regTopics a ++ regTopics b := by
  induction a with
  | nil => rfl
  | cons o a ih => cases o <;> simp [regTopics, ih]

theorem channel_run (before ops : List (COp F β)) (s : CSt F β) (hsub : ∀ t, s.sub t = true ↔ t ∈ regTopics before)
    (hm : ∀ t, s.map t = current t before) (hn : (regTopics (before ++ ops)).Nodup) :
    (ops.foldl cstep s).out = s.out ++ wanted before ops := by
  induction ops generalizing before s with
  | nil => simp [wanted]
  | cons o ops ih =>
    have hn' : (regTopics ((before ++ [o]) ++ ops)).Nodup := by simpa using hn
    rw [List.foldl_cons]
    cases o with
    | reg t p =>
      have hnot : t ∉ regTopics before := by
        rw [regTopics_append] at hn
        intro hc
        exact (List.nodup_append.mp hn).2.2 t hc t (by simp [regTopics]) rfl
      have hs : s.sub t = false := by
        cases h : s.sub t with
        | false => rfl
        | true => exact absurd ((hsub t).mp h) hnot
      have e : cstep s (.reg t p) = { s with map := upd s.map t (some p), sub := upd s.sub t true } := by simp [cstep, hs]
      rw [e, ih (before ++ [.reg t p]) _ ?_ ?_ hn']
      · rfl
      · intro t'
        simp only [upd_apply, regTopics_append, regTopics, List.mem_append, List.mem_singleton]
        split
        · rename_i h; simp [h]
        · rename_i h; simp [h, hsub t']
      · intro t'
        simp only [upd_apply, current, List.foldl_append, List.foldl]
        have := hm t'
        simp only [current] at this
        rw [← this]
        split
        · rename_i h; rw [if_pos h.symm]
        · rename_i h; rw [if_neg (Ne.symm h)]
    | unreg t =>
      have e : cstep s (.unreg t) = { s with map := upd s.map t none } := rfl
      rw [e, ih (before ++ [.unreg t]) _ ?_ ?_ hn']
      · rfl
      · intro t'
        simpa [regTopics_append, regTopics] using hsub t'
      · intro t'
        simp only [upd_apply, current, List.foldl_append, List.foldl]
        have := hm t'
        simp only [current] at this
        rw [← this]
        split
        · rename_i h; rw [if_pos h.symm]
        · rename_i h; rw [if_neg (Ne.symm h)]
    | msg t c =>
      have hcur : ∀ t', current t' (before ++ [.msg t c]) = current t' before := by intro t'; simp [current]
      have e : (cstep s (.msg t c)).sub = s.sub ∧ (cstep s (.msg t c)).map = s.map ∧
          (cstep s (.msg t c)).out = s.out ++ ((current t before).map (fun p => (p, c))).toList := by
        simp only [cstep, hm t]
        cases current t before <;> simp
      rw [ih (before ++ [.msg t c]) _ ?_ ?_ hn']
      · rw [e.2.2, wanted, List.append_assoc]
      · intro t'
        rw [e.1]
        simpa [regTopics_append, regTopics] using hsub t'
      · intro t'
        rw [e.2.1, hcur]; exact hm t'

/-- **C51** for the channel: if no topic is registered twice, every message is published exactly once by the publisher registered
for its topic, and not at all if there is none.
Missing: topics registered again. -/
theorem C51_channel_partial (ops : List (COp F β)) (hn : (regTopics ops).Nodup) : (crun ops).out = wanted [] ops := by
  have := channel_run [] ops (CSt.init : CSt F β) (by intro t; simp [CSt.init, regTopics]) (by intro t; rfl) (by simpa using hn)
  simpa [crun, CSt.init] using this

/-- **C51** fails: whatever happened before, once a topic has been registered, unregistering it and registering it again does not
resume delivery. -/
theorem C51_violation_register_again (ops : List (COp F β)) (t : F) (p : β) (ht : t ∈ regTopics ops) (c : F) :
    (crun (ops ++ [.unreg t, .reg t p, .msg t c])).out = (crun ops).out := by
  have hsub : ∀ (ops : List (COp F β)) (s : CSt F β), (s.sub t = true ∨ t ∈ regTopics ops) →
      (ops.foldl cstep s).sub t = true := by
    intro ops
    induction ops with
    | nil => intro s h; simpa [regTopics] using h
    | cons o ops ih =>
      intro s h
      rw [List.foldl_cons]
      apply ih
      cases o with
      | reg t' p =>
        simp only [regTopics, List.mem_cons] at h
        simp only [cstep]
        rcases h with h | rfl | h
        · left; split
          · exact h
          · simp only [upd_apply]; split
            · rfl
            · exact h
        · left; split
          · assumption
          · simp
        · exact Or.inr h
      | unreg t' => simpa [cstep, regTopics] using h
      | msg t' c' =>
        simp only [regTopics] at h
        simp only [cstep]
        split <;> exact h
  have h1 := hsub ops CSt.init (Or.inr ht)
  simp only [crun, List.foldl_append, List.foldl]
  have h2 : (cstep (List.foldl cstep CSt.init ops) (.unreg t)).sub t = true := h1
  have h3 : (cstep (List.foldl cstep CSt.init ops) (.unreg t)).map t = none := by simp [cstep]
  have h4 : cstep (cstep (List.foldl cstep CSt.init ops) (.unreg t)) (.reg t p) = cstep (List.foldl cstep CSt.init ops) (.unreg t) := by
    rw [show ∀ s : CSt F β, cstep s (.reg t p) = if s.sub t then s else _ from fun s => rfl, if_pos h2]
  rw [h4]
  simp only [cstep, upd_same]

/-- Concrete cases. -/
theorem C51_channel_example :
    (crun [.msg 1 0, .reg 1 'a', .msg 1 5, .reg 2 'b', .msg 2 6, .unreg 1, .msg 1 7, (.msg 2 8 : COp Nat Char)]).out
      = [('a', 5), ('b', 6), ('b', 8)] ∧
    (crun [.reg 1 'a', .msg 1 5, .unreg 1, .reg 1 'a', (.msg 1 7 : COp Nat Char)]).out = [('a', 5)] ∧
    wanted [] [.reg 1 'a', .msg 1 5, .unreg 1, .reg 1 'a', (.msg 1 7 : COp Nat Char)] = [('a', 5), ('a', 7)] := by
  decide +kernel

end Verif.Zmq
