import Verif.Lemmas.ZmqEnd

/-! A path through ZeroMQ, end to end (C83). -/

namespace Verif.ZmqE
open Verif Verif.Fair

variable {F K β : Type} [DecidableEq F]

/-! ### What is received -/

/-- **C83**, order and integrity: if no two publications on the socket overlap, what the receiver publishes internally is, topic and event, a
subsequence of what was published: the right topic, the same value, in order, at most once, nothing else; whatever ZeroMQ loses, whoever
registers and unregisters, stops and starts the poller or throws.
Missing: publications of several threads at the same time, `C83_violation_concurrent_publishers`. -/
theorem C83_received_was_published_partial {g : Cfg F K} {s : St F K β} (h : Reach g s) (ho : s.overlap = false) (hc : AllCarried g s) :
    List.Sublist s.received s.published := by
  obtain ⟨gone, pend, kept, f⟩ := Flow.exists h ho hc
  refine f.order.trans ?_
  simp only [St.published, f.split]
  refine List.Sublist.map _ (((List.take_sublist _ _).trans f.sub).trans ?_)
  exact List.filter_sublist.trans (List.sublist_append_left _ _)

theorem out_registered {g : Cfg F K} {s : St F K β} (h : Reach g s) :
    ∀ x ∈ s.out, ∃ c k0, .dispatched x.2.1 c (some x.1) ∈ s.rx.hist ∧ (g.mp x.2.1).dec c k0 = some x.2.2 := by
  induction h with
  | init => nofun
  | @step s s' a h0 hs ih =>
    have mono : ∀ b q, Zmq.step s.rx b = some q → ∀ e ∈ s.rx.hist, e ∈ q.hist := by
      intro b q hq e he
      cases b <;> simp only [Zmq.step] at hq <;> (repeat' split at hq) <;> (try cases hq) <;> first | exact he | simp [he]
    have keep : ∀ b q, Zmq.step s.rx b = some q → ∀ x ∈ s.out, ∃ c k0, .dispatched x.2.1 c (some x.1) ∈ q.hist ∧ (g.mp x.2.1).dec c k0 = some x.2.2 := by
      intro b q hq x hx
      obtain ⟨c, k0, h1, h2⟩ := ih x hx
      exact ⟨c, k0, mono b q hq _ h1, h2⟩
    cases a with
    | begin u t k b => simp only [ZmqE.step] at hs; (repeat' split at hs) <;> (try cases hs) <;> exact ih
    | send1 u => simp only [ZmqE.step] at hs; split at hs <;> cases hs; exact ih
    | send2 u => simp only [ZmqE.step] at hs; split at hs <;> cases hs; exact ih
    | drop => simp only [ZmqE.step] at hs; split at hs <;> cases hs; exact ih
    | deliver =>
      simp only [ZmqE.step] at hs
      split at hs
      · split at hs
        · rw [Option.map_eq_some_iff] at hs
          obtain ⟨q, hq, rfl⟩ := hs
          exact keep _ q hq
        · cases hs; exact ih
      · cases hs
    | rx b =>
      simp only [ZmqE.step] at hs
      split at hs
      · cases hs
      · cases hs
      · cases hs
      · rw [Option.map_eq_some_iff] at hs
        obtain ⟨q, hq, rfl⟩ := hs
        exact keep _ q hq
    | publish k0 =>
      simp only [ZmqE.step] at hs
      split at hs
      · rename_i t c p hp
        split at hs <;> (rw [Option.map_eq_some_iff] at hs; obtain ⟨q, hq, rfl⟩ := hs)
        · rename_i k hk
          intro x hx
          rcases List.mem_append.mp hx with hx | hx
          · exact keep _ q hq x hx
          · rw [List.mem_singleton] at hx
            subst hx
            exact ⟨c, k0, mono _ q hq _ (h0.rinv.calling t c p hp).2, hk⟩
        · exact keep _ q hq
      · cases hs
    | fail k0 taken =>
      simp only [ZmqE.step] at hs
      split at hs
      · rename_i t c p hp
        split at hs <;> (rw [Option.map_eq_some_iff] at hs; obtain ⟨q, hq, rfl⟩ := hs)
        · rename_i k hk
          intro x hx
          cases taken
          · exact keep _ q hq x hx
          · rcases List.mem_append.mp hx with hx | hx
            · exact keep _ q hq x hx
            · rw [List.mem_singleton] at hx
              subst hx
              exact ⟨c, k0, mono _ q hq _ (h0.rinv.calling t c p hp).2, hk⟩
        · exact keep _ q hq
      · cases hs

/-- **C83**, the right publisher: in every execution, every event published internally was decoded from the content of a message dispatched to this
publisher, which was the one registered for the topic at that moment. -/
theorem C83_to_the_registered_publisher {g : Cfg F K} {s : St F K β} (h : Reach g s) (p : β) (t : F) (k : K) (hx : (p, t, k) ∈ s.out) :
    ∃ h1 c h2 k0, s.rx.hist = h1 ++ .dispatched t c (some p) :: h2 ∧ Zmq.registeredFor t h1 = some p ∧ (g.mp t).dec c k0 = some k := by
  obtain ⟨c, k0, hm, hd⟩ := out_registered h _ hx
  obtain ⟨h1, h2, e⟩ := List.append_of_mem hm
  exact ⟨h1, c, h2, k0, e, (Zmq.C51_dispatch h.rx h1 h2 t c (some p) e).symm, hd⟩

omit [DecidableEq F] in
theorem prefix_filter {α : Type} {f : α → Bool} {a b : List α} (h : a <+: b) : a.filter f <+: b.filter f := by
  obtain ⟨r, rfl⟩ := h
  rw [List.filter_append]
  exact List.prefix_append _ _

/-- The events of topic `t` that reached the poller and were handled. -/
theorem Flow.topic {g : Cfg F K} {s : St F K β} {gone pend kept : List (Msg F K)} (f : Flow g s gone pend kept) (hf : s.failed = 0)
    {t : F} {p : β} (hr : AlwaysRegistered s t p) :
    ofTopic t s.received = ofTopic t ((kept.take (done s.rx)).map (fun m => (m.topic, m.event))) ∧ (∀ x ∈ s.out, x.2.1 = t → x.1 = p) := by
  have h1 := f.full hf t p hr
  constructor
  · have h2 := congrArg (List.map (fun x : β × F × K => (x.2.1, x.2.2))) h1
    simp only [ofTopic, St.received, List.filter_map]
    rw [List.map_map] at h2
    exact h2
  · intro x hx hxt
    have : x ∈ s.out.filter (fun x => decide (x.2.1 = t)) := List.mem_filter.mpr ⟨hx, by simpa using hxt⟩
    rw [h1, List.mem_map] at this
    obtain ⟨m, _, rfl⟩ := this
    rfl

omit [DecidableEq F] in
theorem ofTopic_sub [DecidableEq F] (g : Cfg F K) {t : F} (ht : g.sub t = true) (l : List (Msg F K)) :
    ofTopic t ((l.filter (fun m => g.sub m.topic)).map (fun m => (m.topic, m.event))) = ofTopic t (l.map (fun m => (m.topic, m.event))) := by
  simp only [ofTopic, List.filter_map, List.filter_filter]
  congr 1
  apply List.filter_congr
  intro m _
  by_cases e : m.topic = t
  · simp [e, ht]
  · simp [e]

/-- **C83**, nothing lost: if publications do not overlap, ZeroMQ loses nothing, no function throws and publisher `p` was registered for the
subscribed topic `t` whenever a message of the topic was dispatched, then `p` has published exactly the first events of `t`, in order; all of them
when nothing is on its way.
Missing: as in `C83_received_was_published_partial`; functions that throw, `C83_violation_exception_ends_the_poller`. -/
theorem C83_nothing_lost_partial {g : Cfg F K} {s : St F K β} (h : Reach g s) (ho : s.overlap = false) (hc : AllCarried g s) (hd : s.dropped = 0)
    (hf : s.failed = 0) {t : F} (ht : g.sub t = true) {p : β} (hr : AlwaysRegistered s t p) :
    ofTopic t s.received <+: ofTopic t s.published ∧ (∀ x ∈ s.out, x.2.1 = t → x.1 = p) ∧
    (Quiet s → ofTopic t s.received = ofTopic t s.published) := by
  obtain ⟨gone, pend, kept, f⟩ := Flow.exists h ho hc
  obtain ⟨h1, h2⟩ := f.topic hf hr
  have hk := f.all hd
  refine ⟨?_, h2, ?_⟩
  · rw [h1]
    have e1 : ofTopic t ((kept.take (done s.rx)).map (fun m => (m.topic, m.event))) <+: ofTopic t (kept.map (fun m => (m.topic, m.event))) :=
      prefix_filter ((List.take_prefix _ _).map _)
    refine e1.trans ?_
    rw [hk, ofTopic_sub g ht]
    refine prefix_filter ?_
    simp only [St.published, f.split]
    exact (List.prefix_append _ _).map _
  · rintro ⟨q1, q2, q3⟩
    have hp : pend = [] := by
      have := f.net
      rw [q1] at this
      cases pend with
      | nil => rfl
      | cons m l => cases this
    have hm : Zmq.messages s.rx.hist = kept.map pair := (Zmq.C51_arrival_order_partial h.rx _ f.arrived).2 (by rw [q3]; rfl) q2
    have hdone : done s.rx = kept.length := by
      simp [done, q3, Zmq.PollPc.inside, hm]
    rw [h1, hdone, List.take_length, hk, ofTopic_sub g ht]
    simp only [St.published, f.split, hp, List.append_nil]

/-! ### The mappers of the repository -/

/-- JSON and binary archives carry every event, whatever the pooled object contained; `VoidCaster` carries objects of its size. -/
theorem C83_mappers_carry {K : Type} (c : Channel.Codec K) (n : Nat) :
    (∀ k, Carries (Channel.jsonMapper c) k) ∧ (∀ k, Carries (Channel.binaryMapper c) k) ∧
    (∀ k : List Mapper.Byte, k.length = n → Carries (Channel.voidCasterMapper n) k) := by
  refine ⟨?_, ?_, ?_⟩
  · intro k b m k0 h
    cases h
    have := c.self_delimiting k []
    simpa [Channel.jsonMapper] using this
  · intro k b m k0 h
    cases h
    exact c.self_delimiting k _
  · intro k hk b m k0 h
    cases h
    subst hk
    simp [Channel.voidCasterMapper]

/-! ### Every event is delivered in the end -/

theorem step_sent {g : Cfg F K} {s s' : St F K β} {a : Act F K β} (hs : step g s a = some s') :
    s.sent <+: s'.sent ∧ (s.net.length ≤ s.sent.length → s'.net.length ≤ s'.sent.length ∧
      s.sent.length - s.net.length ≤ s'.sent.length - s'.net.length ∧ (a = .deliver → s.sent.length - s.net.length < s'.sent.length - s'.net.length)) := by
  have same : s'.sent = s.sent → s'.net = s.net → a ≠ .deliver → s.sent <+: s'.sent ∧ (s.net.length ≤ s.sent.length → s'.net.length ≤ s'.sent.length ∧
      s.sent.length - s.net.length ≤ s'.sent.length - s'.net.length ∧ (a = .deliver → s.sent.length - s.net.length < s'.sent.length - s'.net.length)) := by
    intro h1 h2 h3
    rw [h1, h2]
    exact ⟨List.prefix_rfl, fun h => ⟨h, Nat.le_refl _, fun e => absurd e h3⟩⟩
  cases a with
  | begin u t k b => simp only [ZmqE.step] at hs; (repeat' split at hs) <;> (try cases hs) <;> exact same rfl rfl nofun
  | send1 u => simp only [ZmqE.step] at hs; split at hs <;> cases hs; exact same rfl rfl nofun
  | send2 u =>
    simp only [ZmqE.step] at hs
    split at hs <;> cases hs
    refine ⟨List.prefix_append _ _, fun h => ⟨?_, ?_, nofun⟩⟩ <;> simp only [List.length_append, List.length_cons, List.length_nil] <;> omega
  | drop =>
    simp only [ZmqE.step] at hs
    split at hs <;> cases hs
    rename_i x r hn
    rw [hn]
    refine ⟨List.prefix_rfl, fun h => ⟨?_, ?_, nofun⟩⟩ <;> simp only [List.length_cons] at h ⊢ <;> omega
  | deliver =>
    simp only [ZmqE.step] at hs
    split at hs
    · rename_i x fs r hn
      have e : s'.sent = s.sent ∧ s'.net = r := by
        split at hs
        · rw [Option.map_eq_some_iff] at hs; obtain ⟨q, hq, rfl⟩ := hs; exact ⟨rfl, rfl⟩
        · cases hs; exact ⟨rfl, rfl⟩
      rw [e.1, e.2, hn]
      refine ⟨List.prefix_rfl, fun h => ⟨?_, ?_, fun _ => ?_⟩⟩ <;> simp only [List.length_cons] at h ⊢ <;> omega
    · cases hs
  | rx b =>
    simp only [ZmqE.step] at hs
    (repeat' split at hs) <;> (try cases hs) <;> (rw [Option.map_eq_some_iff] at hs; obtain ⟨q, hq, rfl⟩ := hs; exact same rfl rfl nofun)
  | publish k0 =>
    simp only [ZmqE.step] at hs
    (repeat' split at hs) <;> (try cases hs) <;> (rw [Option.map_eq_some_iff] at hs; obtain ⟨q, hq, rfl⟩ := hs; exact same rfl rfl nofun)
  | fail k0 b =>
    simp only [ZmqE.step] at hs
    (repeat' split at hs) <;> (try cases hs) <;> (rw [Option.map_eq_some_iff] at hs; obtain ⟨q, hq, rfl⟩ := hs; exact same rfl rfl nofun)

theorem Run.reach {g : Cfg F K} {σ : Nat → St F K β} {α : Nat → Option (Act F K β)} (h : Run g σ α) : ∀ i, Reach g (σ i)
  | 0 => h.start
  | i + 1 => by
    have := h.exec i
    split at this
    · rw [this]; exact h.reach i
    · exact (h.reach i).step _ this

theorem Reach.net_le {g : Cfg F K} {s : St F K β} (h : Reach g s) : s.net.length ≤ s.sent.length := by
  induction h with
  | init => exact Nat.le_refl _
  | step a _ hs ih => exact ((step_sent hs).2 ih).1

theorem Run.sent_prefix {g : Cfg F K} {σ : Nat → St F K β} {α : Nat → Option (Act F K β)} (h : Run g σ α) {i j : Nat} (hij : i ≤ j) :
    (σ i).sent <+: (σ j).sent := by
  induction hij with
  | refl => exact List.prefix_rfl
  | @step j _ ih =>
    refine ih.trans ?_
    show (σ j).sent <+: (σ (j + 1)).sent
    have := h.exec j
    split at this
    · rw [this]; exact List.prefix_rfl
    · exact (step_sent this).1

/-- The polling thread works. -/
structure Up (s : St F K β) : Prop where
  running : s.rx.running = true
  relock : s.rx.poll ≠ .relock
  exited : s.rx.poll ≠ .exited

/-- How far the poller is in its iteration. -/
def phase : Zmq.PollPc F β → Nat
  | .haveTopic _ => 1
  | .have2 _ _ => 2
  | .calling _ _ _ => 3
  | _ => 0

/-- Work done by the poller. -/
def work (s : St F K β) : Nat := 4 * done s.rx + phase s.rx.poll

theorem step_work {g : Cfg F K} {s s' : St F K β} {a : Act F K β} (h : Reach g s) (hs : step g s a = some s') (hu : Up s) (hf : s'.failed = 0)
    (h1 : a ≠ .rx .reenter) (h2 : a ≠ .rx .stop) : Up s' ∧ work s ≤ work s' ∧ (PollTurn a → work s < work s') := by
  obtain ⟨u1, u2, u3⟩ := hu
  have same : s'.rx = s.rx → ¬ PollTurn a → Up s' ∧ work s ≤ work s' ∧ (PollTurn a → work s < work s') := by
    intro e ht
    refine ⟨⟨by rw [e]; exact u1, by rw [e]; exact u2, by rw [e]; exact u3⟩, by simp only [work, e]; exact Nat.le_refl _, fun e => absurd e ht⟩
  have hri := h.rinv
  have nt : ∀ {b : Act F K β}, (∀ b', b ≠ .rx b') → (∀ k, b ≠ .publish k) → ¬ PollTurn b := by
    rintro b hb hk (e | e | e | ⟨k, e⟩)
    · exact hb _ e
    · exact hb _ e
    · exact hb _ e
    · exact hk _ e
  cases a with
  | begin u t k b => simp only [ZmqE.step] at hs; (repeat' split at hs) <;> (try cases hs) <;> exact same rfl (nt nofun nofun)
  | send1 u => simp only [ZmqE.step] at hs; split at hs <;> cases hs; exact same rfl (nt nofun nofun)
  | send2 u => simp only [ZmqE.step] at hs; split at hs <;> cases hs; exact same rfl (nt nofun nofun)
  | drop => simp only [ZmqE.step] at hs; split at hs <;> cases hs; exact same rfl (nt nofun nofun)
  | deliver =>
    simp only [ZmqE.step] at hs
    split at hs
    · split at hs
      · rw [Option.map_eq_some_iff] at hs
        obtain ⟨q, hq, rfl⟩ := hs
        cases hq
        exact ⟨⟨u1, u2, u3⟩, Nat.le_refl _, fun e => absurd e (nt nofun nofun)⟩
      · cases hs; exact same rfl (nt nofun nofun)
    · cases hs
  | fail k0 b =>
    simp only [ZmqE.step] at hs
    (repeat' split at hs) <;> (try cases hs) <;> (rw [Option.map_eq_some_iff] at hs; obtain ⟨q, hq, rfl⟩ := hs; exact absurd hf (Nat.succ_ne_zero _))
  | publish k0 =>
    simp only [ZmqE.step] at hs
    split at hs
    · rename_i t c p hp
      split at hs <;> (rw [Option.map_eq_some_iff] at hs; obtain ⟨q, hq, rfl⟩ := hs)
      · have hd := (end_done hri hp (.inl hq)).2.2.1
        simp only [Zmq.step, hp] at hq
        cases hq
        have e : work s = 4 * done s.rx + 3 := by simp [work, hp, phase]
        refine ⟨⟨u1, nofun, nofun⟩, ?_, fun _ => ?_⟩ <;> (rw [e]; simp only [work, phase]; omega)
      · exact absurd hf (Nat.succ_ne_zero _)
    · cases hs
  | rx b =>
    cases b with
    | arrive ps => cases hs
    | «return» => cases hs
    | throw => cases hs
    | reenter => exact absurd rfl h1
    | stop => exact absurd rfl h2
    | recvTopic =>
      simp only [ZmqE.step, Zmq.step] at hs
      rw [Option.map_eq_some_iff] at hs
      obtain ⟨q, hq, rfl⟩ := hs
      split at hq
      · rename_i t r hp _
        rw [if_pos u1] at hq
        cases hq
        have e : work s = 4 * (Zmq.messages s.rx.hist).length := by simp [work, done, hp, phase, Zmq.PollPc.inside]
        refine ⟨⟨u1, nofun, nofun⟩, ?_, fun _ => ?_⟩ <;> (rw [e]; simp [work, done, phase, Zmq.PollPc.inside])
      · cases hq
    | recvContent =>
      simp only [ZmqE.step, Zmq.step] at hs
      rw [Option.map_eq_some_iff] at hs
      obtain ⟨q, hq, rfl⟩ := hs
      split at hq
      · rename_i t c r hp _
        cases hq
        have e : work s = 4 * (Zmq.messages s.rx.hist).length + 1 := by simp [work, done, hp, phase, Zmq.PollPc.inside]
        refine ⟨⟨u1, nofun, nofun⟩, ?_, fun _ => ?_⟩ <;> (rw [e]; simp [work, done, phase, Zmq.PollPc.inside])
      · cases hq
    | execute =>
      simp only [ZmqE.step, Zmq.step] at hs
      rw [Option.map_eq_some_iff] at hs
      obtain ⟨q, hq, rfl⟩ := hs
      split at hq
      · rename_i t c hp
        split at hq
        · cases hq
        have e : work s = 4 * (Zmq.messages s.rx.hist).length + 2 := by simp [work, done, hp, phase, Zmq.PollPc.inside]
        split at hq
        · cases hq
          have e' : ∀ f, work { s with rx := { s.rx with poll := .calling t c f, locked := true, hist := s.rx.hist ++ [.dispatched t c (some f)] } } = 4 * (Zmq.messages s.rx.hist).length + 3 := by
            intro f
            simp [work, done, phase, Zmq.PollPc.inside, Zmq.messages_append, Zmq.messages]
          refine ⟨⟨u1, nofun, nofun⟩, ?_, fun _ => ?_⟩ <;> (rw [e, e']; omega)
        · cases hq
          have e' : work { s with rx := { s.rx with poll := .top, hist := s.rx.hist ++ [.dispatched t c none] } } = 4 * (Zmq.messages s.rx.hist).length + 4 := by
            simp [work, done, phase, Zmq.PollPc.inside, Zmq.messages_append, Zmq.messages]
            omega
          refine ⟨⟨u1, nofun, nofun⟩, ?_, fun _ => ?_⟩ <;> (rw [e, e']; omega)
      · cases hq
    | start =>
      simp only [ZmqE.step, Zmq.step] at hs
      rw [Option.map_eq_some_iff] at hs
      obtain ⟨q, hq, rfl⟩ := hs
      cases hq
    | exit =>
      simp only [ZmqE.step, Zmq.step] at hs
      rw [Option.map_eq_some_iff] at hs
      obtain ⟨q, hq, rfl⟩ := hs
      split at hq
      · rw [if_pos u1] at hq; cases hq
      · cases hq
    | callReg u t f =>
      simp only [ZmqE.step, Zmq.step] at hs
      rw [Option.map_eq_some_iff] at hs
      obtain ⟨q, hq, rfl⟩ := hs
      split at hq <;> cases hq
      exact ⟨⟨u1, u2, u3⟩, Nat.le_refl _, fun e => by rcases e with e | e | e | ⟨k, e⟩ <;> cases e⟩
    | callUnreg u t =>
      simp only [ZmqE.step, Zmq.step] at hs
      rw [Option.map_eq_some_iff] at hs
      obtain ⟨q, hq, rfl⟩ := hs
      split at hq <;> cases hq
      exact ⟨⟨u1, u2, u3⟩, Nat.le_refl _, fun e => by rcases e with e | e | e | ⟨k, e⟩ <;> cases e⟩
    | doReg u =>
      simp only [ZmqE.step, Zmq.step] at hs
      rw [Option.map_eq_some_iff] at hs
      obtain ⟨q, hq, rfl⟩ := hs
      (repeat' split at hq) <;> (try cases hq)
      exact ⟨⟨u1, u2, u3⟩, by simp [work, done, Zmq.messages_append, Zmq.messages], fun e => by rcases e with e | e | e | ⟨k, e⟩ <;> cases e⟩
    | doUnreg u =>
      simp only [ZmqE.step, Zmq.step] at hs
      rw [Option.map_eq_some_iff] at hs
      obtain ⟨q, hq, rfl⟩ := hs
      (repeat' split at hq) <;> (try cases hq)
      exact ⟨⟨u1, u2, u3⟩, by simp [work, done, Zmq.messages_append, Zmq.messages], fun e => by rcases e with e | e | e | ⟨k, e⟩ <;> cases e⟩

theorem Smooth.up {g : Cfg F K} {σ : Nat → St F K β} {α : Nat → Option (Act F K β)} (h : Run g σ α) (hm : Smooth g σ α) : ∀ i, Up (σ i)
  | 0 => ⟨hm.running.1, hm.running.2.1, hm.running.2.2⟩
  | i + 1 => by
    have := h.exec i
    split at this
    · rw [this]; exact hm.up h i
    · rename_i a ha
      exact (step_work (h.reach i) this (hm.up h i) (hm.noFail _) (by rintro rfl; exact hm.noReenter i ha) (by rintro rfl; exact hm.noStop i ha)).1

/-- **C83**, delivery: in every fair execution in which nothing goes wrong, every event published on a subscribed topic for which `p` is registered
is published by `p` at the receiver in the end; with all the earlier ones of the topic before it, in order.
Missing: the conditions of `Smooth`, see the findings. -/
theorem C83_delivered_in_the_end_partial {g : Cfg F K} {σ : Nat → St F K β} {α : Nat → Option (Act F K β)} (h : Run g σ α) (hm : Smooth g σ α)
    (hn : NetFair σ α) (hp : PollFair σ α) {t : F} (ht : g.sub t = true) {p : β} (hr : ∀ j, AlwaysRegistered (σ j) t p) (i : Nat) :
    ∃ j, i ≤ j ∧ ofTopic t (σ i).published <+: ofTopic t (σ j).received := by
  -- the messages leave the network
  have net : ∃ j, i ≤ j ∧ (σ i).sent.length ≤ (σ j).sent.length - (σ j).net.length := by
    apply Classical.byContradiction
    intro hno
    have hg : ∀ j, i ≤ j → ¬ (σ i).sent.length ≤ (σ j).sent.length - (σ j).net.length := fun j hj e => hno ⟨j, hj, e⟩
    have busy : ∀ j, i ≤ j → (σ j).net ≠ [] := by
      intro j hj e
      refine hg j hj ?_
      rw [e]
      exact (h.sent_prefix hj).length_le
    refine hno (Fair.eventually (σ := σ) (α := α) (fun a => a = .deliver) (fun s : St F K β => (σ i).sent.length ≤ s.sent.length - s.net.length) (fun s : St F K β => (σ i).sent.length - (s.sent.length - s.net.length)) i ?_ ?_)
    · intro k hk
      exact hn k (fun j hj => busy j (by omega))
    · intro j hj hng
      have e := h.exec j
      split at e
      · rename_i ha
        rw [e]
        exact ⟨Nat.le_refl _, by rw [ha]; nofun⟩
      · rename_i a ha
        have := (step_sent e).2 (h.reach j).net_le
        refine ⟨by omega, ?_⟩
        intro b hb hd
        rw [ha] at hb
        cases hb
        have := this.2.2 hd
        omega
  obtain ⟨j1, hj1, hgone⟩ := net
  obtain ⟨gone1, pend1, kept1, f1⟩ := Flow.exists (h.reach j1) (hm.noOverlap j1) (hm.carried j1)
  -- the poller handles what has arrived
  have poll : ∃ j, j1 ≤ j ∧ kept1.length ≤ done (σ j).rx := by
    apply Classical.byContradiction
    intro hno
    have hg : ∀ j, j1 ≤ j → ¬ kept1.length ≤ done (σ j).rx := fun j hj e => hno ⟨j, hj, e⟩
    have busy : ∀ j, j1 ≤ j → PollBusy (σ j) := by
      intro j hj
      apply Classical.byContradiction
      intro hb
      refine hg j hj ?_
      have hb1 : (σ j).rx.frames = [] := Classical.byContradiction fun e => hb (.inl e)
      have hb2 : (σ j).rx.poll = .top := by
        have : ¬ ((σ j).rx.poll matches .top) = false := fun e => hb (.inr e)
        cases hpc : (σ j).rx.poll <;> simp [hpc] at this
        rfl
      obtain ⟨gone, pend, kept, f⟩ := Flow.exists (h.reach j) (hm.noOverlap j) (hm.carried j)
      have hmsg : Zmq.messages (σ j).rx.hist = kept.map pair := (Zmq.C51_arrival_order_partial (h.reach j).rx _ f.arrived).2 (by rw [hb2]; rfl) hb1
      have hdone : done (σ j).rx = kept.length := by simp [done, hb2, Zmq.PollPc.inside, hmsg]
      rw [hdone, f.all (hm.noDrop j), f1.all (hm.noDrop j1)]
      refine (prefix_filter ?_).length_le
      have l1 : gone1 <+: (σ j).sent := by
        have : gone1 <+: (σ j1).sent := by rw [f1.split]; exact List.prefix_append _ _
        exact this.trans (h.sent_prefix hj)
      have l2 : gone <+: (σ j).sent := by rw [f.split]; exact List.prefix_append _ _
      refine List.prefix_of_prefix_length_le l1 l2 ?_
      have mono : (σ j1).sent.length - (σ j1).net.length ≤ (σ j).sent.length - (σ j).net.length := by
        clear hmsg hdone hb1 hb2 hb l1 l2 f
        induction hj with
        | refl => exact Nat.le_refl _
        | @step j _ ih =>
          refine Nat.le_trans ih ?_
          show _ ≤ (σ (j + 1)).sent.length - (σ (j + 1)).net.length
          have e := h.exec j
          split at e
          · rw [e]; exact Nat.le_refl _
          · exact ((step_sent e).2 (h.reach j).net_le).2.1
      have e1 : gone1.length = (σ j1).sent.length - (σ j1).net.length := by rw [f1.split, f1.net]; simp
      have e2 : gone.length = (σ j).sent.length - (σ j).net.length := by rw [f.split, f.net]; simp
      omega
    refine hno (Fair.eventually (σ := σ) (α := α) PollTurn (fun s : St F K β => kept1.length ≤ done s.rx) (fun s : St F K β => 4 * kept1.length + 3 - work s) j1 ?_ ?_)
    · intro k hk
      exact hp k (fun j hj => busy j (by omega))
    · intro j hj hng
      have e := h.exec j
      split at e
      · rename_i ha
        rw [e]
        exact ⟨Nat.le_refl _, by rw [ha]; nofun⟩
      · rename_i a ha
        have hw := step_work (h.reach j) e (hm.up h j) (hm.noFail _) (by rintro rfl; exact hm.noReenter j ha) (by rintro rfl; exact hm.noStop j ha)
        refine ⟨by omega, ?_⟩
        intro b hb ho
        rw [ha] at hb
        cases hb
        have h3 := hw.2.2 ho
        have h4 : work (σ j) < 4 * kept1.length + 3 := by
          have : phase (σ j).rx.poll ≤ 3 := by cases (σ j).rx.poll <;> simp [phase]
          simp only [work]
          omega
        omega
  obtain ⟨j2, hj2, hdone⟩ := poll
  refine ⟨j2, by omega, ?_⟩
  obtain ⟨gone2, pend2, kept2, f2⟩ := Flow.exists (h.reach j2) (hm.noOverlap j2) (hm.carried j2)
  rw [(f2.topic (hm.noFail j2) (hr j2)).1]
  -- `sent` at time `i` is in both
  have e1 : gone1.length = (σ j1).sent.length - (σ j1).net.length := by rw [f1.split, f1.net]; simp
  have e2 : gone2.length = (σ j2).sent.length - (σ j2).net.length := by rw [f2.split, f2.net]; simp
  have p1 : (σ i).sent <+: gone1 := by
    refine List.prefix_of_prefix_length_le (h.sent_prefix hj1) (by rw [f1.split]; exact List.prefix_append _ _) (by omega)
  have hle : kept1.length ≤ kept2.length := Nat.le_trans hdone f2.le
  have hsub : (((σ i).sent.filter (fun m => g.sub m.topic)).length ≤ kept1.length) := by
    rw [f1.all (hm.noDrop j1)]
    exact (prefix_filter p1).length_le
  have p2 : (σ i).sent.filter (fun m => g.sub m.topic) <+: kept2 := by
    have a1 : (σ i).sent.filter (fun m => g.sub m.topic) <+: (σ j2).sent.filter (fun m => g.sub m.topic) :=
      prefix_filter (h.sent_prefix (by omega))
    have a2 : kept2 <+: (σ j2).sent.filter (fun m => g.sub m.topic) := by
      rw [f2.all (hm.noDrop j2), f2.split]
      exact prefix_filter (List.prefix_append _ _)
    exact List.prefix_of_prefix_length_le a1 a2 (by omega)
  have p3 : (σ i).sent.filter (fun m => g.sub m.topic) <+: kept2.take (done (σ j2).rx) := by
    refine List.prefix_of_prefix_length_le p2 (List.take_prefix _ _) ?_
    rw [List.length_take]
    omega
  have := prefix_filter (f := fun x : F × K => decide (x.1 = t)) (p3.map (fun m => (m.topic, m.event)))
  have e := ofTopic_sub g ht (σ i).sent
  simp only [ofTopic] at e
  rw [e] at this
  exact this

/-! ### Findings -/

set_option synthInstance.maxSize 4000

/-- Prefix subscriptions of a ZeroMQ socket. -/
def prefixSub (subs : List (List Mapper.Byte)) (x : List Mapper.Byte) : Bool := subs.any (fun p => p.isPrefixOf x)

/-- Objects of one byte through the `VoidCaster` channel; the receiver subscribes to topics `A` (65) and `B` (66). -/
def exG : Cfg (List Mapper.Byte) (List Mapper.Byte) := ⟨fun _ => Channel.voidCasterMapper 1, prefixSub [[65], [66]]⟩

/-- Publishers 0 and 1 are registered for `A` and `B`. -/
def exReg : List (Act (List Mapper.Byte) (List Mapper.Byte) Nat) :=
  [.rx (.callReg 0 [65] 0), .rx (.doReg 0), .rx (.callReg 0 [66] 1), .rx (.doReg 0)]

/-- Threads 0 and 1 publish at the same time. -/
def exMixed : List (Act (List Mapper.Byte) (List Mapper.Byte) Nat) :=
  exReg ++ [.begin 0 [65] [7] [], .begin 1 [66] [9] [], .send1 0, .send1 1, .send2 0, .send2 1, .deliver, .deliver,
    .rx .recvTopic, .rx .recvContent, .rx .execute, .publish []]

/-- **C83** fails when two threads publish at the same time, even on different topics: the two calls of `send` of a publication are not one step on
the shared socket, the frames are mixed up as `A B 7` and `9`.  Thread 0 publishes 7 on topic `A`, thread 1 publishes 9 on topic `B`, both
publications are completed, and the listener of `A` gets an event with the value 66, the name of topic `B`, which nobody has published; 7 and 9 are lost,
and a frame is left over. -/
theorem C83_violation_concurrent_publishers : ((run exG (St.init : St _ _ Nat) exMixed).map (fun s => (s.published, s.received, s.rx.poll, s.rx.frames, s.net))) =
    some ([([65], [7]), ([66], [9])], [([65], [66])], .top, [[7]], []) := by decide +kernel

/-- Actions that publish no content that is the name of a registered topic, and register topics of `T` only. -/
def Plain (g : Cfg F K) (T : F → Prop) : Act F K β → Prop
  | .begin _ t k b => ∀ c, (g.mp t).enc k b = some c → ¬ T c
  | .rx (.callReg _ t _) => T t
  | _ => True

/-- At most one publication is in progress. -/
def One (s : St F K β) : Prop :=
  (s.active = 0 ∧ (∀ u, s.pub u = .idle) ∧ s.part = []) ∨
  (s.active = 1 ∧ ∃ u, (∀ v, v ≠ u → s.pub v = .idle) ∧
    ((∃ t k c, s.pub u = .sending t k c ∧ s.part = []) ∨ (∃ t k c, s.pub u = .topicSent t k c ∧ s.part = [t])))

omit [DecidableEq F] in
theorem One.same {s s' : St F K β} (h : One s) (h1 : s'.pub = s.pub) (h2 : s'.part = s.part) (h3 : s'.active = s.active) : One s' := by
  simp only [One, h1, h2, h3]; exact h

/-- Publications from now on are made one at a time. -/
def Single (s : St F K β) : Act F K β → Prop
  | .begin _ _ _ _ => s.active = 0
  | _ => True

instance (s : St F K β) (a : Act F K β) : Decidable (Single s a) := by cases a <;> simp only [Single] <;> infer_instance

theorem One.step {g : Cfg F K} {s s' : St F K β} {a : Act F K β} (h : One s) (ha : Single s a) (hs : step g s a = some s') : One s' := by
  cases a with
  | begin u t k b =>
    simp only [ZmqE.step] at hs
    split at hs
    · split at hs
      · rename_i c hc
        cases hs
        rcases h with ⟨_, hi, hp⟩ | ⟨e, _⟩
        · exact .inr ⟨by show s.active + 1 = 1; rw [show s.active = 0 from ha], u, fun v hv => (upd_other _ _ hv).trans (hi v), .inl ⟨t, k, c, upd_same _ _ _, hp⟩⟩
        · have : s.active = 0 := ha
          omega
      · cases hs; exact h
    · cases hs
  | send1 u =>
    simp only [ZmqE.step] at hs
    split at hs
    · rename_i t k c hu
      cases hs
      rcases h with ⟨_, hi, hp⟩ | ⟨e, w, hw, hc⟩
      · rw [hi u] at hu; cases hu
      · have hwu : u = w := Classical.byContradiction fun hne => by rw [hw u hne] at hu; cases hu
        subst hwu
        rcases hc with ⟨t', k', c', h1, h2⟩ | ⟨t', k', c', h1, h2⟩
        · rw [hu] at h1; cases h1
          refine .inr ⟨e, u, fun v hv => (upd_other _ _ hv).trans (hw v hv), .inr ⟨t, k, c, upd_same _ _ _, ?_⟩⟩
          show s.part ++ [t] = [t]
          rw [h2]; rfl
        · rw [hu] at h1; cases h1
    · cases hs
  | send2 u =>
    simp only [ZmqE.step] at hs
    split at hs
    · rename_i t k c hu
      cases hs
      rcases h with ⟨_, hi, hp⟩ | ⟨e, w, hw, hc⟩
      · rw [hi u] at hu; cases hu
      · have hwu : u = w := Classical.byContradiction fun hne => by rw [hw u hne] at hu; cases hu
        subst hwu
        refine .inl ⟨by show s.active - 1 = 0; omega, ?_, rfl⟩
        intro v
        by_cases hv : v = u
        · subst hv; exact upd_same _ _ _
        · exact (upd_other _ _ hv).trans (hw v hv)
    · cases hs
  | drop => simp only [ZmqE.step] at hs; split at hs <;> cases hs; exact h.same rfl rfl rfl
  | deliver =>
    simp only [ZmqE.step] at hs
    (repeat' split at hs) <;> (try cases hs) <;> first
      | exact h.same rfl rfl rfl
      | (rw [Option.map_eq_some_iff] at hs; obtain ⟨q, h1, rfl⟩ := hs; exact h.same rfl rfl rfl)
  | rx b =>
    simp only [ZmqE.step] at hs
    (repeat' split at hs) <;> (try cases hs) <;> (rw [Option.map_eq_some_iff] at hs; obtain ⟨q, h1, rfl⟩ := hs; exact h.same rfl rfl rfl)
  | publish k0 =>
    simp only [ZmqE.step] at hs
    (repeat' split at hs) <;> (try cases hs) <;> (rw [Option.map_eq_some_iff] at hs; obtain ⟨q, h1, rfl⟩ := hs; exact h.same rfl rfl rfl)
  | fail k0 b =>
    simp only [ZmqE.step] at hs
    (repeat' split at hs) <;> (try cases hs) <;> (rw [Option.map_eq_some_iff] at hs; obtain ⟨q, h1, rfl⟩ := hs; exact h.same rfl rfl rfl)

/-- A run in which publications are made one at a time. -/
def singleRun (g : Cfg F K) (s : St F K β) : List (Act F K β) → Option (St F K β)
  | [] => some s
  | a :: as => if Single s a then match step g s a with
      | none => none
      | some s' => singleRun g s' as
    else none

/-- The receiver is one frame late. -/
structure Late (T : F → Prop) (s : St F K β) : Prop where
  pub1 : ∀ u t k c, s.pub u = .sending t k c → ¬ T c
  pub2 : ∀ u t k c, s.pub u = .topicSent t k c → ¬ T c
  net : ∃ pend : List (F × F), s.net = pend.map (fun m => [m.1, m.2]) ∧ ∀ m ∈ pend, ¬ T m.2
  frames : ∃ c0 ps, ¬ T c0 ∧ (∀ m ∈ ps, ¬ T m.2) ∧
    (((s.rx.poll = .top ∨ s.rx.poll = .exited) ∧ s.rx.frames = c0 :: Zmq.framesOf ps) ∨
     (s.rx.poll = .haveTopic c0 ∧ s.rx.frames = Zmq.framesOf ps) ∨
     (∃ t c1 ps', ps = (t, c1) :: ps' ∧ s.rx.poll = .have2 c0 t ∧ s.rx.frames = c1 :: Zmq.framesOf ps'))
  map : ∀ t p, s.rx.map t = some p → T t
  client : ∀ u t p, s.rx.client u = .reg t p → T t

theorem Late.step {g : Cfg F K} {T : F → Prop} {s s' : St F K β} {a : Act F K β} (hone : One s) (h : Late T s) (ha : Plain g T a) (hs : step g s a = some s') :
    Late T s' ∧ s'.out = s.out := by
  obtain ⟨h1, h2, h3, h4, h5, h6⟩ := h
  have notCalling : ∀ t c p, s.rx.poll ≠ .calling t c p := by
    intro t c p e
    obtain ⟨c0, ps, _, _, (⟨e' | e', _⟩ | ⟨e', _⟩ | ⟨_, _, _, _, e', _⟩)⟩ := h4 <;> rw [e] at e' <;> cases e'
  cases a with
  | begin u t k b =>
    simp only [ZmqE.step] at hs
    split at hs
    · split at hs
      · rename_i c hc
        cases hs
        refine ⟨⟨?_, ?_, h3, h4, h5, h6⟩, rfl⟩
        · intro v t' k' c' hv
          by_cases e : v = u
          · subst e
            have := (upd_same s.pub v (.sending t k c)).symm.trans hv
            cases this
            exact ha c hc
          · exact h1 v t' k' c' ((upd_other _ _ e).symm.trans hv)
        · intro v t' k' c' hv
          by_cases e : v = u
          · subst e
            have := (upd_same s.pub v (.sending t k c)).symm.trans hv
            cases this
          · exact h2 v t' k' c' ((upd_other _ _ e).symm.trans hv)
      · cases hs
        exact ⟨⟨h1, h2, h3, h4, h5, h6⟩, rfl⟩
    · cases hs
  | send1 u =>
    simp only [ZmqE.step] at hs
    split at hs
    · rename_i t k c hu
      cases hs
      refine ⟨⟨?_, ?_, h3, h4, h5, h6⟩, rfl⟩
      · intro v t' k' c' hv
        by_cases e : v = u
        · subst e
          have := (upd_same s.pub v (.topicSent t k c)).symm.trans hv
          cases this
        · exact h1 v t' k' c' ((upd_other _ _ e).symm.trans hv)
      · intro v t' k' c' hv
        by_cases e : v = u
        · subst e
          have := (upd_same s.pub v (.topicSent t k c)).symm.trans hv
          cases this
          exact h1 v t k c hu
        · exact h2 v t' k' c' ((upd_other _ _ e).symm.trans hv)
    · cases hs
  | send2 u =>
    simp only [ZmqE.step] at hs
    split at hs
    · rename_i t k c hu
      cases hs
      have hp : s.part = [t] := by
        rcases hone with ⟨_, hi, _⟩ | ⟨_, w, hw, hx⟩
        · rw [hi u] at hu; cases hu
        · have hwu : u = w := Classical.byContradiction fun hne => by rw [hw u hne] at hu; cases hu
          subst hwu
          rcases hx with ⟨t', k', c', h1, h2⟩ | ⟨t', k', c', h1, h2⟩
          · rw [hu] at h1; cases h1
          · rw [hu] at h1; cases h1; exact h2
      refine ⟨⟨?_, ?_, ?_, h4, h5, h6⟩, rfl⟩
      · intro v t' k' c' hv
        by_cases e : v = u
        · subst e
          have := (upd_same s.pub v .idle).symm.trans hv
          cases this
        · exact h1 v t' k' c' ((upd_other _ _ e).symm.trans hv)
      · intro v t' k' c' hv
        by_cases e : v = u
        · subst e
          have := (upd_same s.pub v .idle).symm.trans hv
          cases this
        · exact h2 v t' k' c' ((upd_other _ _ e).symm.trans hv)
      · obtain ⟨pend, e, hall⟩ := h3
        refine ⟨pend ++ [(t, c)], ?_, ?_⟩
        · show s.net ++ [s.part ++ [c]] = _
          rw [e, hp]; simp
        · intro m hm
          rcases List.mem_append.mp hm with hm | hm
          · exact hall m hm
          · rw [List.mem_singleton] at hm; subst hm; exact h2 u t k c hu
    · cases hs
  | drop =>
    simp only [ZmqE.step] at hs
    split at hs
    · rename_i x r hn
      cases hs
      refine ⟨⟨h1, h2, ?_, h4, h5, h6⟩, rfl⟩
      obtain ⟨pend, e, hall⟩ := h3
      rw [hn] at e
      cases pend with
      | nil => cases e
      | cons m pend => exact ⟨pend, (List.cons.inj e).2, fun m' hm => hall m' (List.mem_cons_of_mem _ hm)⟩
    · cases hs
  | deliver =>
    simp only [ZmqE.step] at hs
    split at hs
    · rename_i x fs r hn
      obtain ⟨pend, e, hall⟩ := h3
      rw [hn] at e
      cases pend with
      | nil => cases e
      | cons m pend =>
        obtain ⟨e1, e2⟩ := List.cons.inj e
        have hnet : ∃ pend : List (F × F), r = pend.map (fun m => [m.1, m.2]) ∧ ∀ m ∈ pend, ¬ T m.2 :=
          ⟨pend, e2, fun m' hm => hall m' (List.mem_cons_of_mem _ hm)⟩
        have hm := hall m List.mem_cons_self
        split at hs
        · rw [Option.map_eq_some_iff] at hs
          obtain ⟨q, hq, rfl⟩ := hs
          cases hq
          refine ⟨⟨h1, h2, hnet, ?_, h5, h6⟩, rfl⟩
          obtain ⟨c0, ps, hc0, hps, hcase⟩ := h4
          refine ⟨c0, ps ++ [m], hc0, ?_, ?_⟩
          · intro m' hm'
            rcases List.mem_append.mp hm' with hm' | hm'
            · exact hps m' hm'
            · rw [List.mem_singleton] at hm'; subst hm'; exact hm
          · have ef : Zmq.framesOf (ps ++ [m]) = Zmq.framesOf ps ++ (x :: fs) := by
              rw [Zmq.framesOf_append, e1]; simp [Zmq.framesOf]
            rcases hcase with ⟨hp, hf⟩ | ⟨hp, hf⟩ | ⟨t, c1, ps', eps, hp, hf⟩
            · refine .inl ⟨hp, ?_⟩
              show s.rx.frames ++ (x :: fs) = _
              rw [hf, ef]; rfl
            · refine .inr (.inl ⟨hp, ?_⟩)
              show s.rx.frames ++ (x :: fs) = _
              rw [hf, ef]
            · refine .inr (.inr ⟨t, c1, ps' ++ [m], by rw [eps]; rfl, hp, ?_⟩)
              show s.rx.frames ++ (x :: fs) = _
              rw [hf, Zmq.framesOf_append, e1]; simp [Zmq.framesOf]
        · cases hs
          exact ⟨⟨h1, h2, hnet, h4, h5, h6⟩, rfl⟩
    · cases hs
  | publish k0 => simp only [ZmqE.step] at hs; cases hs
  | fail k0 b => simp only [ZmqE.step] at hs; cases hs
  | rx b =>
    have hb : ∃ q, Zmq.step s.rx b = some q ∧ s' = { s with rx := q } := by
      simp only [ZmqE.step] at hs
      split at hs
      · cases hs
      · cases hs
      · cases hs
      · rw [Option.map_eq_some_iff] at hs
        obtain ⟨q, hq, e⟩ := hs
        exact ⟨q, hq, e.symm⟩
    obtain ⟨q, hq, rfl⟩ := hb
    obtain ⟨c0, ps, hc0, hps, hcase⟩ := h4
    refine ⟨?_, rfl⟩
    cases b with
    | arrive ps => cases hs
    | «return» => cases hs
    | throw => cases hs
    | recvTopic =>
      simp only [Zmq.step] at hq
      split at hq
      · rename_i t r hp hf
        split at hq
        · cases hq
          rcases hcase with ⟨_, hf'⟩ | ⟨hp', hf'⟩ | ⟨t', c1, ps', eps, hp', hf'⟩
          · rw [hf] at hf'
            obtain ⟨e1, e2⟩ := List.cons.inj hf'
            subst e1
            exact ⟨h1, h2, h3, ⟨t, ps, hc0, hps, .inr (.inl ⟨rfl, e2⟩)⟩, h5, h6⟩
          · rw [hp] at hp'; cases hp'
          · rw [hp] at hp'; cases hp'
        · cases hq
      · cases hq
    | recvContent =>
      simp only [Zmq.step] at hq
      split at hq
      · rename_i t c r hp hf
        cases hq
        rcases hcase with ⟨hp' | hp', _⟩ | ⟨hp', hf'⟩ | ⟨t', c1, ps', eps, hp', hf'⟩
        · rw [hp] at hp'; cases hp'
        · rw [hp] at hp'; cases hp'
        · rw [hp] at hp'; cases hp'
          rw [hf] at hf'
          cases ps with
          | nil => cases hf'
          | cons m ps =>
            have e : Zmq.framesOf (m :: ps) = m.1 :: m.2 :: Zmq.framesOf ps := rfl
            rw [e] at hf'
            obtain ⟨e1, e2⟩ := List.cons.inj hf'
            subst e1
            exact ⟨h1, h2, h3, ⟨_, m :: ps, hc0, hps, .inr (.inr ⟨m.1, m.2, ps, rfl, rfl, e2⟩)⟩, h5, h6⟩
        · rw [hp] at hp'; cases hp'
      · cases hq
    | execute =>
      simp only [Zmq.step] at hq
      split at hq
      · rename_i t c hp
        rcases hcase with ⟨hp' | hp', _⟩ | ⟨hp', hf'⟩ | ⟨t', c1, ps', eps, hp', hf'⟩
        · rw [hp] at hp'; cases hp'
        · rw [hp] at hp'; cases hp'
        · rw [hp] at hp'; cases hp'
        · rw [hp] at hp'; cases hp'
          split at hq
          · cases hq
          · split at hq
            · rename_i f hm; exact absurd (h5 _ _ hm) hc0
            · cases hq
              have hc1 : ¬ T c1 := hps (c, c1) (by rw [eps]; exact List.mem_cons_self)
              exact ⟨h1, h2, h3, ⟨c1, ps', hc1, fun m hm => hps m (by rw [eps]; exact List.mem_cons_of_mem _ hm), .inl ⟨.inl rfl, hf'⟩⟩, h5, h6⟩
      · cases hq
    | reenter =>
      simp only [Zmq.step] at hq; cases hq
    | stop => cases hq; exact ⟨h1, h2, h3, ⟨c0, ps, hc0, hps, hcase⟩, h5, h6⟩
    | start =>
      simp only [Zmq.step] at hq
      split at hq
      · rename_i hp
        split at hq
        · cases hq
        · cases hq
          rcases hcase with ⟨_, hf'⟩ | ⟨hp', hf'⟩ | ⟨t', c1, ps', eps, hp', hf'⟩
          · exact ⟨h1, h2, h3, ⟨c0, ps, hc0, hps, .inl ⟨.inl rfl, hf'⟩⟩, h5, h6⟩
          · rw [hp] at hp'; cases hp'
          · rw [hp] at hp'; cases hp'
      · cases hq
    | exit =>
      simp only [Zmq.step] at hq
      split at hq
      · rename_i hp
        split at hq
        · cases hq
        · cases hq
          rcases hcase with ⟨_, hf'⟩ | ⟨hp', hf'⟩ | ⟨t', c1, ps', eps, hp', hf'⟩
          · exact ⟨h1, h2, h3, ⟨c0, ps, hc0, hps, .inl ⟨.inr rfl, hf'⟩⟩, h5, h6⟩
          · rw [hp] at hp'; cases hp'
          · rw [hp] at hp'; cases hp'
      · cases hq
    | callReg u t f =>
      simp only [Zmq.step] at hq
      split at hq <;> cases hq
      refine ⟨h1, h2, h3, ⟨c0, ps, hc0, hps, hcase⟩, h5, ?_⟩
      intro v t' p hv
      by_cases e : v = u
      · subst e
        have := (upd_same s.rx.client v (.reg t f)).symm.trans hv
        cases this
        exact ha
      · exact h6 v t' p ((upd_other _ _ e).symm.trans hv)
    | callUnreg u t =>
      simp only [Zmq.step] at hq
      split at hq <;> cases hq
      refine ⟨h1, h2, h3, ⟨c0, ps, hc0, hps, hcase⟩, h5, ?_⟩
      intro v t' p hv
      by_cases e : v = u
      · subst e
        have := (upd_same s.rx.client v (.unreg t)).symm.trans hv
        cases this
      · exact h6 v t' p ((upd_other _ _ e).symm.trans hv)
    | doReg u =>
      simp only [Zmq.step] at hq
      split at hq
      · rename_i t f hu
        split at hq
        · cases hq
        · cases hq
          refine ⟨h1, h2, h3, ⟨c0, ps, hc0, hps, hcase⟩, ?_, ?_⟩
          · intro t' p hm
            by_cases e : t' = t
            · subst e; exact h6 u t' f hu
            · exact h5 t' p ((upd_other _ _ e).symm.trans hm)
          · intro v t' p hv
            by_cases e : v = u
            · subst e
              have := (upd_same s.rx.client v .idle).symm.trans hv
              cases this
            · exact h6 v t' p ((upd_other _ _ e).symm.trans hv)
      · cases hq
    | doUnreg u =>
      simp only [Zmq.step] at hq
      split at hq
      · rename_i t hu
        split at hq
        · cases hq
        · cases hq
          refine ⟨h1, h2, h3, ⟨c0, ps, hc0, hps, hcase⟩, ?_, ?_⟩
          · intro t' p hm
            by_cases e : t' = t
            · subst e
              have := (upd_same s.rx.map t' none).symm.trans hm
              cases this
            · exact h5 t' p ((upd_other _ _ e).symm.trans hm)
          · intro v t' p hv
            by_cases e : v = u
            · subst e
              have := (upd_same s.rx.client v .idle).symm.trans hv
              cases this
            · exact h6 v t' p ((upd_other _ _ e).symm.trans hv)
      · cases hq

/-- **C83** fails, for ever: once one frame is left over (as after `C83_violation_concurrent_publishers`), no event is published internally any more,
whatever is published from then on, even by one thread at a time, on whatever topic, and also if the poller is stopped and started again or topics
are registered anew; as long as no content happens to be the name of a registered topic. -/
theorem C83_violation_receiver_out_of_step {g : Cfg F K} {s : St F K β} (T : F → Prop) (hidle : ∀ u, s.pub u = .idle) (hact : s.active = 0)
    (hpart : s.part = []) (hnet : s.net = []) (hpoll : s.rx.poll = .top) {c0 : F} (hfr : s.rx.frames = [c0]) (hc0 : ¬ T c0) (hm : ∀ t p, s.rx.map t = some p → T t)
    (hcl : ∀ u, s.rx.client u = .idle) (as : List (Act F K β)) (hp : ∀ a ∈ as, Plain g T a) {s' : St F K β} (hs : singleRun g s as = some s') :
    s'.out = s.out := by
  have hl : Late T s := ⟨fun u t k c e => by rw [hidle u] at e; (cases e), fun u t k c e => by rw [hidle u] at e; (cases e), ⟨[], by rw [hnet]; rfl, nofun⟩,
    ⟨c0, [], hc0, nofun, .inl ⟨.inl hpoll, by rw [hfr]; rfl⟩⟩, hm, fun u t p e => by rw [hcl u] at e; (cases e)⟩
  have ho : One s := .inl ⟨hact, hidle, hpart⟩
  clear hidle hnet hpoll hfr hm hcl hact hpart
  induction as generalizing s with
  | nil => cases hs; rfl
  | cons a as ih =>
    simp only [singleRun] at hs
    split at hs
    · rename_i hsg
      split at hs
      · cases hs
      · rename_i s1 h1
        obtain ⟨l1, e1⟩ := hl.step ho (hp a List.mem_cons_self) h1
        rw [← e1]
        exact ih (fun b hb => hp b (List.mem_cons_of_mem _ hb)) hs l1 (ho.step hsg h1)
    · cases hs

/-- The state of `C83_violation_concurrent_publishers` meets the hypotheses, and a continuation with two more publications, one at a time, and `stop` and
`start` of the poller. -/
theorem C83_out_of_step_example :
    ((run exG (St.init : St _ _ Nat) exMixed).map (fun s => (s.pub 0, s.pub 1, s.active, s.part, s.net, s.rx.frames))) =
      some (.idle, .idle, 0, [], [], [[7]]) ∧
    (((run exG (St.init : St _ _ Nat) exMixed).bind (fun s => singleRun exG s [.begin 0 [65] [5] [], .send1 0, .send2 0, .deliver, .rx .recvTopic, .rx .recvContent,
      .rx .execute, .begin 1 [66] [6] [], .send1 1, .send2 1, .deliver, .rx .stop, .rx .exit, .rx .start, .rx .recvTopic, .rx .recvContent, .rx .execute])).map
      (fun s => (s.published, s.received, s.rx.frames))) =
    some ([([65], [7]), ([66], [9]), ([65], [5]), ([66], [6])], [([65], [66])], [[6]]) := by decide +kernel

/-- An execution of a state without `_running` cleared and without `stop` leaves an ended poller ended. -/
theorem dead_step {g : Cfg F K} {s s' : St F K β} {a : Act F K β} (h1 : s.rx.poll = .exited) (h2 : s.rx.running = true) (ha : a ≠ .rx .stop)
    (hs : step g s a = some s') : s'.rx.poll = .exited ∧ s'.rx.running = true ∧ s'.out = s.out := by
  cases a with
  | rx b =>
    have hb : ∃ q, Zmq.step s.rx b = some q ∧ s' = { s with rx := q } := by
      simp only [ZmqE.step] at hs
      split at hs
      · cases hs
      · cases hs
      · cases hs
      · rw [Option.map_eq_some_iff] at hs
        obtain ⟨q, hq, e⟩ := hs
        exact ⟨q, hq, e.symm⟩
    obtain ⟨q, hq, rfl⟩ := hb
    refine ⟨?_, ?_, rfl⟩ <;> cases b <;> simp only [Zmq.step, h1, h2] at hq <;> (repeat' split at hq) <;> (try cases hq) <;> first
      | exact h1 | exact h2 | rfl | (exact absurd rfl ha) | (simp_all; done)
  | publish k0 => simp only [ZmqE.step, h1] at hs; cases hs
  | fail k0 b => simp only [ZmqE.step, h1] at hs; cases hs
  | deliver =>
    simp only [ZmqE.step] at hs
    split at hs
    · split at hs
      · rw [Option.map_eq_some_iff] at hs
        obtain ⟨q, hq, rfl⟩ := hs
        cases hq
        exact ⟨h1, h2, rfl⟩
      · cases hs; exact ⟨h1, h2, rfl⟩
    · cases hs
  | begin u t k b => simp only [ZmqE.step] at hs; (repeat' split at hs) <;> (try cases hs) <;> exact ⟨h1, h2, rfl⟩
  | send1 u => simp only [ZmqE.step] at hs; split at hs <;> cases hs; exact ⟨h1, h2, rfl⟩
  | send2 u => simp only [ZmqE.step] at hs; split at hs <;> cases hs; exact ⟨h1, h2, rfl⟩
  | drop => simp only [ZmqE.step] at hs; split at hs <;> cases hs; exact ⟨h1, h2, rfl⟩

/-- **C83** fails: if decoding a message fails or the internal publisher throws, the polling thread ends without a word; from then on nothing is published
internally, for any topic, whatever is sent or registered and however often `start` is called, until `stop` has been called. -/
theorem C83_violation_exception_ends_the_poller {g : Cfg F K} {s s1 s' : St F K β} (hrun : s.rx.running = true) {a : Act F K β}
    (hs : step g s a = some s1) (hf : s.failed < s1.failed) (as : List (Act F K β)) (hst : ∀ b ∈ as, b ≠ .rx .stop) (h' : run g s1 as = some s') :
    s1.rx.poll = .exited ∧ s'.rx.poll = .exited ∧ s'.out = s1.out := by
  have h1 : s1.rx.poll = .exited ∧ s1.rx.running = true := by
    cases a <;> simp only [ZmqE.step] at hs <;> (repeat' split at hs) <;> (try cases hs) <;> first
      | (exact absurd hf (Nat.lt_irrefl _))
      | (rw [Option.map_eq_some_iff] at hs
         obtain ⟨q, hq, rfl⟩ := hs
         first
         | (exact absurd hf (Nat.lt_irrefl _))
         | (simp only [Zmq.step] at hq
            split at hq <;> cases hq
            exact ⟨rfl, hrun⟩))
  refine ⟨h1.1, ?_⟩
  obtain ⟨h1, h2⟩ := h1
  clear hs hf hrun
  induction as generalizing s1 with
  | nil => cases h'; exact ⟨h1, rfl⟩
  | cons b as ih =>
    simp only [run] at h'
    split at h'
    · cases h'
    · rename_i s2 e2
      obtain ⟨d1, d2, d3⟩ := dead_step h1 h2 (hst b List.mem_cons_self) e2
      rw [← d3]
      exact ih (fun c hc => hst c (List.mem_cons_of_mem _ hc)) h' d1 d2

/-- The hypotheses are met: one byte is expected, an empty content (an object of another size published on the same topic) cannot be decoded; the next event is not
delivered, nor those of the other topic. -/
theorem C83_exception_example : ((run exG (St.init : St _ _ Nat) (exReg ++ [.begin 0 [65] [] [], .send1 0, .send2 0, .deliver, .rx .recvTopic, .rx .recvContent, .rx .execute,
      .publish [], .begin 0 [66] [9] [], .send1 0, .send2 0, .deliver])).map (fun s => (s.published, s.received, s.rx.poll, s.rx.running, s.failed, s.rx.frames))) =
    some ([([65], []), ([66], [9])], [], .exited, true, 1, [[66], [9]]) := by decide +kernel

/-! ### Concrete cases -/

/-- Two threads publish one after the other; topic `C` (67) is not subscribed; the receiver gets everything of `A` and `B`, in order. -/
def exRun : List (Act (List Mapper.Byte) (List Mapper.Byte) Nat) :=
  exReg ++ [.begin 0 [65] [7] [], .send1 0, .send2 0, .begin 1 [66] [9] [3], .deliver, .send1 1, .rx .recvTopic, .send2 1, .rx .recvContent, .begin 0 [67] [1] [],
    .send1 0, .send2 0, .rx .execute, .publish [0], .begin 0 [65] [8] [], .deliver, .send1 0, .send2 0, .deliver, .rx .recvTopic, .rx .recvContent, .deliver, .rx .execute,
    .publish [], .rx .recvTopic, .rx .recvContent, .rx .execute, .publish []]

/-- `exRun` meets the hypotheses of `C83_received_was_published_partial` and `C83_nothing_lost_partial`. -/
theorem C83_example : ((run exG (St.init : St _ _ Nat) exRun).map (fun s => (s.published, s.out, s.overlap, s.dropped, s.failed, s.net))) =
      some ([([65], [7]), ([66], [9]), ([67], [1]), ([65], [8])], [(0, [65], [7]), (1, [66], [9]), (0, [65], [8])], false, 0, 0, []) ∧
    ((run exG (St.init : St _ _ Nat) exRun).map (fun s => (s.rx.frames, s.rx.poll, s.rx.hist))) =
      some ([], .top, [.registered [65] 0, .registered [66] 1, .dispatched [65] [7] (some 0), .dispatched [66] [9] (some 1), .dispatched [65] [8] (some 0)]) := by
  decide +kernel

/-- The states of the infinite execution that does `exRun` and then rests. -/
def exσ : Nat → St (List Mapper.Byte) (List Mapper.Byte) Nat
  | 0 => St.init
  | i + 1 => match exRun[i]? with
    | some a => (step exG (exσ i) a).getD (exσ i)
    | none => exσ i

theorem exσ_rest (i : Nat) (h : exRun.length ≤ i) : exσ i = exσ exRun.length := by
  induction h with
  | refl => rfl
  | @step i hi ih =>
    show (match exRun[i]? with | some a => _ | none => exσ i) = _
    rw [List.getElem?_eq_none hi]
    exact ih

/-- Checks of a state of the execution. -/
def exOk (s : St (List Mapper.Byte) (List Mapper.Byte) Nat) : Bool :=
  s.sent.all (fun m => m.event.length == 1) && !s.overlap && s.dropped == 0 && s.failed == 0 &&
  s.rx.hist.all (fun e => match e with | .dispatched t _ r => t != [65] || r == some 0 | _ => true)

theorem exσ_ok (i : Nat) : exOk (exσ i) = true := by
  have h : ∀ i : Fin (exRun.length + 1), exOk (exσ i) = true := by decide +kernel
  by_cases hi : i ≤ exRun.length
  · exact h ⟨i, by omega⟩
  · rw [exσ_rest i (by omega)]
    exact h ⟨exRun.length, by omega⟩

/-- The hypotheses of `C83_delivered_in_the_end_partial` are met, for topic `A` and publisher 0; both events of `A` are published and received. -/
theorem C83_delivered_example : Run exG exσ (fun i => exRun[i]?) ∧ Smooth exG exσ (fun i => exRun[i]?) ∧ NetFair exσ (fun i => exRun[i]?) ∧
    PollFair exσ (fun i => exRun[i]?) ∧ exG.sub [65] = true ∧ (∀ j, AlwaysRegistered (exσ j) [65] 0) ∧
    ofTopic [65] (exσ 40).published = [([65], [7]), ([65], [8])] ∧ ofTopic [65] (exσ 40).received = [([65], [7]), ([65], [8])] := by
  have ok := exσ_ok
  simp only [exOk, Bool.and_eq_true, List.all_eq_true, beq_iff_eq, Bool.not_eq_true'] at ok
  have hα : ∀ i a, exRun[i]? = some a → a ∈ exRun := fun i a h => List.mem_of_getElem? h
  have quiet : ∀ i, exRun.length ≤ i → (exσ i).net = [] ∧ (exσ i).rx.frames = [] ∧ (exσ i).rx.poll = .top := by
    intro i hi
    rw [exσ_rest i hi]
    decide +kernel
  refine ⟨⟨.init, ?_⟩, ⟨?_, fun i => (ok i).1.1.1.2, fun i => (ok i).1.1.2, fun i => (ok i).1.2, ?_, ?_, ⟨rfl, nofun, nofun⟩⟩, ?_, ?_, by decide +kernel, ?_, by decide +kernel,
    by decide +kernel⟩
  · intro i
    have e2 : exσ (i + 1) = (match exRun[i]? with | some a => (step exG (exσ i) a).getD (exσ i) | none => exσ i) := rfl
    split
    · rename_i e
      have e : exRun[i]? = none := e
      rw [e2, e]
    · rename_i a e
      have e : exRun[i]? = some a := e
      have h : ∀ i : Fin exRun.length, (step exG (exσ i) exRun[i]).isSome = true := by decide +kernel
      obtain ⟨hi, ea⟩ := List.getElem?_eq_some_iff.mp e
      obtain ⟨s', hs'⟩ := Option.isSome_iff_exists.mp (h ⟨i, hi⟩)
      have hs : step exG (exσ i) a = some s' := by rw [← ea]; exact hs'
      rw [e2, e]
      show step exG (exσ i) a = some ((step exG (exσ i) a).getD (exσ i))
      rw [hs]; rfl
  · intro i m hm
    exact (C83_mappers_carry (K := Unit) ⟨fun _ => [], fun _ => some (), fun _ _ => rfl⟩ 1).2.2 m.event ((ok i).1.1.1.1 m hm)
  · intro i h
    have h1 := hα i _ h
    simp only [exRun, exReg, List.mem_append, List.mem_cons, List.not_mem_nil] at h1
    simp at h1
  · intro i h
    have h1 := hα i _ h
    simp only [exRun, exReg, List.mem_append, List.mem_cons, List.not_mem_nil] at h1
    simp at h1
  · intro i hb
    exact absurd (quiet (max i exRun.length) (by omega)).1 (hb _ (by omega))
  · intro i hb
    have q := quiet (max i exRun.length) (by omega)
    rcases hb (max i exRun.length) (by omega) with h | h
    · exact absurd q.2.1 h
    · rw [q.2.2] at h; cases h
  · intro j c r hm
    have := (ok j).2 _ hm
    simpa using this

end Verif.ZmqE
