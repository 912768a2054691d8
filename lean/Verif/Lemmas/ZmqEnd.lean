import Verif.Spec.ZmqEnd
import Verif.Props.Zmq
import Verif.Lemmas.Fair

/-! Invariants of the path through ZeroMQ. -/

namespace Verif.ZmqE
open Verif Verif.Fair

variable {F K β : Type} [DecidableEq F]

theorem step_rx {g : Cfg F K} {s s' : St F K β} {a : Act F K β} (hs : step g s a = some s') :
    s'.rx = s.rx ∨ ∃ b, Zmq.step s.rx b = some s'.rx := by
  cases a <;> simp only [step] at hs <;> (repeat' split at hs) <;> (try cases hs) <;>
    first
    | exact .inl rfl
    | exact .inr ⟨.arrive _, rfl⟩
    | (rw [Option.map_eq_some_iff] at hs; obtain ⟨q, h1, rfl⟩ := hs; exact .inr ⟨_, h1⟩)

theorem Reach.rx {g : Cfg F K} {s : St F K β} (h : Reach g s) : Zmq.Reach s.rx := by
  induction h with
  | init => exact .init
  | step a _ hs ih =>
    rcases step_rx hs with e | ⟨b, e⟩
    · rw [e]; exact ih
    · exact ih.step b e

/-! ### The sender -/

structure SInv (g : Cfg F K) (s : St F K β) : Prop where
  one : s.overlap = false →
    (s.active = 0 ∧ (∀ u, s.pub u = .idle) ∧ s.part = []) ∨
    (s.active = 1 ∧ ∃ u, (∀ v, v ≠ u → s.pub v = .idle) ∧
      ((∃ t k c, s.pub u = .sending t k c ∧ s.part = []) ∨ (∃ t k c, s.pub u = .topicSent t k c ∧ s.part = [t])))
  enc1 : ∀ u t k c, s.pub u = .sending t k c → ∃ b, (g.mp t).enc k b = some c
  enc2 : ∀ u t k c, s.pub u = .topicSent t k c → ∃ b, (g.mp t).enc k b = some c
  sent : ∀ m ∈ s.sent, ∃ b, (g.mp m.topic).enc m.event b = some m.content

omit [DecidableEq F] in
theorem SInv.init (g : Cfg F K) : SInv g (St.init : St F K β) :=
  ⟨fun _ => .inl ⟨rfl, fun _ => rfl, rfl⟩, nofun, nofun, nofun⟩

omit [DecidableEq F] in
/-- Steps that leave the sender alone. -/
theorem SInv.same {g : Cfg F K} {s s' : St F K β} (h : SInv g s) (h1 : s'.pub = s.pub) (h2 : s'.part = s.part) (h3 : s'.sent = s.sent)
    (h4 : s'.active = s.active) (h5 : s'.overlap = s.overlap) : SInv g s' := by
  obtain ⟨a, b, c, d⟩ := h
  exact ⟨by rw [h1, h2, h4, h5]; exact a, by rw [h1]; exact b, by rw [h1]; exact c, by rw [h3]; exact d⟩

theorem SInv.step {g : Cfg F K} {s s' : St F K β} {a : Act F K β} (h : SInv g s) (hs : step g s a = some s') : SInv g s' := by
  cases a with
  | begin u t k b =>
    simp only [ZmqE.step] at hs
    split at hs
    · rename_i hu
      split at hs
      · rename_i c hc
        cases hs
        refine ⟨?_, ?_, ?_, h.sent⟩
        · intro ho
          have ho' : s.overlap = false ∧ s.active = 0 := by
            simp only [Bool.or_eq_false_iff, decide_eq_false_iff_not] at ho
            exact ⟨ho.1, by omega⟩
          rcases h.one ho'.1 with ⟨_, hi, hp⟩ | ⟨e, _⟩
          · refine .inr ⟨by simp [ho'.2], u, ?_, .inl ⟨t, k, c, upd_same _ _ _, hp⟩⟩
            intro v hv
            exact (upd_other _ _ hv).trans (hi v)
          · omega
        · intro v t' k' c' hv
          by_cases e : v = u
          · subst e
            have := (upd_same s.pub v (.sending t k c)).symm.trans hv
            cases this
            exact ⟨b, hc⟩
          · exact h.enc1 v t' k' c' ((upd_other _ _ e).symm.trans hv)
        · intro v t' k' c' hv
          by_cases e : v = u
          · subst e
            have := (upd_same s.pub v (.sending t k c)).symm.trans hv
            cases this
          · exact h.enc2 v t' k' c' ((upd_other _ _ e).symm.trans hv)
      · cases hs; exact h
    · cases hs
  | send1 u =>
    simp only [ZmqE.step] at hs
    split at hs
    · rename_i t k c hu
      cases hs
      refine ⟨?_, ?_, ?_, h.sent⟩
      · intro ho
        rcases h.one ho with ⟨_, hi, hp⟩ | ⟨e, w, hw, hc⟩
        · rw [hi u] at hu; cases hu
        · have hwu : u = w := Classical.byContradiction fun hne => by rw [hw u hne] at hu; cases hu
          subst hwu
          rcases hc with ⟨t', k', c', h1, h2⟩ | ⟨t', k', c', h1, h2⟩
          · rw [hu] at h1; cases h1
            refine .inr ⟨e, u, fun v hv => (upd_other _ _ hv).trans (hw v hv), .inr ⟨t, k, c, upd_same _ _ _, ?_⟩⟩
            show s.part ++ [t] = [t]
            rw [h2]; rfl
          · rw [hu] at h1; cases h1
      · intro v t' k' c' hv
        by_cases e : v = u
        · subst e
          have := (upd_same s.pub v (.topicSent t k c)).symm.trans hv
          cases this
        · exact h.enc1 v t' k' c' ((upd_other _ _ e).symm.trans hv)
      · intro v t' k' c' hv
        by_cases e : v = u
        · subst e
          have := (upd_same s.pub v (.topicSent t k c)).symm.trans hv
          cases this
          exact h.enc1 v t k c hu
        · exact h.enc2 v t' k' c' ((upd_other _ _ e).symm.trans hv)
    · cases hs
  | send2 u =>
    simp only [ZmqE.step] at hs
    split at hs
    · rename_i t k c hu
      cases hs
      refine ⟨?_, ?_, ?_, ?_⟩
      · intro ho
        rcases h.one ho with ⟨_, hi, hp⟩ | ⟨e, w, hw, hc⟩
        · rw [hi u] at hu; cases hu
        · have hwu : u = w := Classical.byContradiction fun hne => by rw [hw u hne] at hu; cases hu
          subst hwu
          refine .inl ⟨by show s.active - 1 = 0; omega, ?_, rfl⟩
          intro v
          by_cases hv : v = u
          · subst hv; exact upd_same _ _ _
          · exact (upd_other _ _ hv).trans (hw v hv)
      · intro v t' k' c' hv
        by_cases e : v = u
        · subst e
          have := (upd_same s.pub v .idle).symm.trans hv
          cases this
        · exact h.enc1 v t' k' c' ((upd_other _ _ e).symm.trans hv)
      · intro v t' k' c' hv
        by_cases e : v = u
        · subst e
          have := (upd_same s.pub v .idle).symm.trans hv
          cases this
        · exact h.enc2 v t' k' c' ((upd_other _ _ e).symm.trans hv)
      · intro m hm
        rcases List.mem_append.mp hm with hm | hm
        · exact h.sent m hm
        · rw [List.mem_singleton] at hm
          subst hm
          exact h.enc2 u t k c hu
    · cases hs
  | drop =>
    simp only [ZmqE.step] at hs
    split at hs <;> cases hs
    exact h.same rfl rfl rfl rfl rfl
  | deliver =>
    simp only [ZmqE.step] at hs
    (repeat' split at hs) <;> (try cases hs) <;> first
      | exact h.same rfl rfl rfl rfl rfl
      | (rw [Option.map_eq_some_iff] at hs; obtain ⟨q, h1, rfl⟩ := hs; exact h.same rfl rfl rfl rfl rfl)
  | rx b =>
    simp only [ZmqE.step] at hs
    (repeat' split at hs) <;> (try cases hs) <;>
      (rw [Option.map_eq_some_iff] at hs; obtain ⟨q, h1, rfl⟩ := hs; exact h.same rfl rfl rfl rfl rfl)
  | publish k0 =>
    simp only [ZmqE.step] at hs
    (repeat' split at hs) <;> (try cases hs) <;>
      (rw [Option.map_eq_some_iff] at hs; obtain ⟨q, h1, rfl⟩ := hs; exact h.same rfl rfl rfl rfl rfl)
  | fail k0 b =>
    simp only [ZmqE.step] at hs
    (repeat' split at hs) <;> (try cases hs) <;>
      (rw [Option.map_eq_some_iff] at hs; obtain ⟨q, h1, rfl⟩ := hs; exact h.same rfl rfl rfl rfl rfl)

theorem Reach.sinv {g : Cfg F K} {s : St F K β} (h : Reach g s) : SInv g s := by
  induction h with
  | init => exact SInv.init g
  | step a _ hs ih => exact ih.step hs

/-! ### The receiver -/

/-- Messages the poller is through with. -/
def done (q : Zmq.St F β) : Nat := (Zmq.messages q.hist).length - (if q.poll.inside then 1 else 0)

/-- While a function runs, its message is the last one dispatched. -/
structure RInv (q : Zmq.St F β) : Prop where
  calling : ∀ t c p, q.poll = .calling t c p → (∃ d, Zmq.messages q.hist = d ++ [(t, c)]) ∧ .dispatched t c (some p) ∈ q.hist
  relock : q.poll = .relock → Zmq.messages q.hist ≠ []

theorem RInv.step {q q' : Zmq.St F β} {a : Zmq.Act F β} (h : RInv q) (hs : Zmq.step q a = some q') : RInv q' := by
  obtain ⟨h1, h2⟩ := h
  cases a <;> simp only [Zmq.step] at hs <;> (repeat' split at hs) <;> (try cases hs) <;>
    first
    | exact ⟨h1, h2⟩
    | ((refine ⟨?_, ?_⟩ <;> intros <;> contradiction); done)
    | (refine ⟨?_, by intros; contradiction⟩
       intro t c p e
       cases e
       exact ⟨⟨Zmq.messages q.hist, by simp [Zmq.messages_append, Zmq.messages]⟩, by simp⟩)
    | (rename_i hp
       refine ⟨by intros; contradiction, fun _ => ?_⟩
       obtain ⟨⟨d, hd⟩, _⟩ := h1 _ _ _ hp
       rw [hd]; simp)
    | (refine ⟨fun t c p e => ?_, fun e => ?_⟩
       · obtain ⟨⟨d, hd⟩, hm⟩ := h1 t c p e
         exact ⟨⟨d, by simpa [Zmq.messages_append, Zmq.messages] using hd⟩, by simp [hm]⟩
       · simpa [Zmq.messages_append, Zmq.messages] using h2 e)

theorem Reach.rinv {g : Cfg F K} {s : St F K β} (h : Reach g s) : RInv s.rx := by
  have := h.rx
  revert this
  generalize s.rx = q
  intro hq
  induction hq with
  | init => exact ⟨nofun, nofun⟩
  | step a _ hs ih => exact ih.step hs

/-- Steps of the poller that are not the arrival of a message or the end of a function. -/
theorem rx_done {q q' : Zmq.St F β} {a : Zmq.Act F β} (hs : Zmq.step q a = some q') (h1 : ∀ ps, a ≠ .arrive ps) (h2 : a ≠ .return) (h3 : a ≠ .throw) :
    q'.arrived = q.arrived ∧
    ((done q' = done q ∧ ∀ e ∈ q.hist, e ∈ q'.hist) ∨
     (done q = (Zmq.messages q.hist).length ∧ done q' = done q + 1 ∧ ∃ t c, q'.hist = q.hist ++ [.dispatched t c none])) := by
  cases a with
  | arrive ps => exact absurd rfl (h1 ps)
  | «return» => exact absurd rfl h2
  | throw => exact absurd rfl h3
  | recvTopic =>
    simp only [Zmq.step] at hs
    (repeat' split at hs) <;> (try cases hs)
    rename_i hp _ _
    exact ⟨rfl, .inl ⟨by simp [done, hp, Zmq.PollPc.inside], fun _ e => e⟩⟩
  | recvContent =>
    simp only [Zmq.step] at hs
    (repeat' split at hs) <;> (try cases hs)
    rename_i hp _
    exact ⟨rfl, .inl ⟨by simp [done, hp, Zmq.PollPc.inside], fun _ e => e⟩⟩
  | execute =>
    simp only [Zmq.step] at hs
    split at hs
    · rename_i t c hp
      split at hs
      · cases hs
      split at hs <;> cases hs
      · exact ⟨rfl, .inl ⟨by simp [done, hp, Zmq.PollPc.inside, Zmq.messages_append, Zmq.messages], fun _ e => by simp [e]⟩⟩
      · refine ⟨rfl, .inr ⟨by simp [done, hp, Zmq.PollPc.inside], by simp [done, hp, Zmq.PollPc.inside, Zmq.messages_append, Zmq.messages], t, c, rfl⟩⟩
    · cases hs
  | reenter =>
    simp only [Zmq.step] at hs
    split at hs <;> cases hs
    rename_i hp
    exact ⟨rfl, .inl ⟨by simp [done, hp, Zmq.PollPc.inside], fun _ e => e⟩⟩
  | stop =>
    cases hs
    exact ⟨rfl, .inl ⟨rfl, fun _ e => e⟩⟩
  | start =>
    simp only [Zmq.step] at hs
    (repeat' split at hs) <;> (try cases hs)
    rename_i hp _
    exact ⟨rfl, .inl ⟨by simp [done, hp, Zmq.PollPc.inside], fun _ e => e⟩⟩
  | exit =>
    simp only [Zmq.step] at hs
    (repeat' split at hs) <;> (try cases hs)
    rename_i hp _
    exact ⟨rfl, .inl ⟨by simp [done, hp, Zmq.PollPc.inside], fun _ e => e⟩⟩
  | callReg u t f =>
    simp only [Zmq.step] at hs
    split at hs <;> cases hs
    exact ⟨rfl, .inl ⟨rfl, fun _ e => e⟩⟩
  | callUnreg u t =>
    simp only [Zmq.step] at hs
    split at hs <;> cases hs
    exact ⟨rfl, .inl ⟨rfl, fun _ e => e⟩⟩
  | doReg u =>
    simp only [Zmq.step] at hs
    (repeat' split at hs) <;> (try cases hs)
    exact ⟨rfl, .inl ⟨by simp [done, Zmq.messages_append, Zmq.messages], fun _ e => by simp [e]⟩⟩
  | doUnreg u =>
    simp only [Zmq.step] at hs
    (repeat' split at hs) <;> (try cases hs)
    exact ⟨rfl, .inl ⟨by simp [done, Zmq.messages_append, Zmq.messages], fun _ e => by simp [e]⟩⟩

/-- A function ends. -/
theorem end_done {q q' : Zmq.St F β} {t c : F} {p : β} (h : RInv q) (hp : q.poll = .calling t c p)
    (hs : Zmq.step q .return = some q' ∨ Zmq.step q .throw = some q') :
    q'.arrived = q.arrived ∧ q'.hist = q.hist ∧ done q' = done q + 1 ∧ ∃ d, Zmq.messages q.hist = d ++ [(t, c)] ∧ d.length = done q := by
  obtain ⟨⟨d, hd⟩, _⟩ := h.calling t c p hp
  have e : q'.arrived = q.arrived ∧ q'.hist = q.hist ∧ q'.poll.inside = false := by
    rcases hs with hs | hs <;> (simp only [Zmq.step, hp] at hs; cases hs; exact ⟨rfl, rfl, rfl⟩)
  refine ⟨e.1, e.2.1, ?_, d, hd, ?_⟩
  · have : q.poll.inside = true := by rw [hp]; rfl
    simp [done, e.2.1, e.2.2, this, hd]
  · simp [done, hp, Zmq.PollPc.inside, hd]

/-! ### The whole path -/

def pair (m : Msg F K) : F × F := (m.topic, m.content)

/-- `kept` are the messages that reached the receiving socket. -/
structure Flow (g : Cfg F K) (s : St F K β) (gone pend kept : List (Msg F K)) : Prop where
  split : s.sent = gone ++ pend
  net : s.net = pend.map (fun m => [m.topic, m.content])
  sub : List.Sublist kept (gone.filter (fun m => g.sub m.topic))
  all : s.dropped = 0 → kept = gone.filter (fun m => g.sub m.topic)
  arrived : s.rx.arrived = Zmq.framesOf (kept.map pair)
  le : done s.rx ≤ kept.length
  order : List.Sublist s.received ((kept.take (done s.rx)).map (fun m => (m.topic, m.event)))
  full : s.failed = 0 → ∀ t p, AlwaysRegistered s t p →
    s.out.filter (fun x => decide (x.2.1 = t)) = ((kept.take (done s.rx)).filter (fun m => decide (m.topic = t))).map (fun m => (p, m.topic, m.event))

theorem prefix_pairs {q : Zmq.St F β} (h : Zmq.Reach q) {kept : List (Msg F K)} (ha : q.arrived = Zmq.framesOf (kept.map pair)) :
    Zmq.messages q.hist <+: kept.map pair := (Zmq.C51_arrival_order_partial h _ ha).1

omit [DecidableEq F] in
theorem take_next {kept : List (Msg F K)} {d : List (F × F)} {t c : F} (h : (d ++ [(t, c)]) <+: kept.map pair) :
    ∃ m ∈ kept, kept.take (d.length + 1) = kept.take d.length ++ [m] ∧ m.topic = t ∧ m.content = c := by
  have hl : d.length < kept.length := by
    have := h.length_le
    simp at this
    omega
  have hg : (kept.map pair)[d.length]'(by simpa using hl) = (t, c) := by
    obtain ⟨r, hr⟩ := h
    simp [← hr]
  refine ⟨kept[d.length], List.getElem_mem hl, by rw [List.take_add_one, List.getElem?_eq_getElem hl]; rfl, ?_, ?_⟩
  · have := congrArg Prod.fst hg; simpa [pair] using this
  · have := congrArg Prod.snd hg; simpa [pair] using this

theorem messages_done {q : Zmq.St F β} (h : Zmq.Reach q) {kept : List (Msg F K)} (ha : q.arrived = Zmq.framesOf (kept.map pair)) : done q ≤ kept.length := by
  have := (prefix_pairs h ha).length_le
  simp only [List.length_map] at this
  simp only [done]
  omega

/-- The part of `Flow` about the events received, when only the receiver moves. -/
theorem Flow.of_rx {g : Cfg F K} {s s' : St F K β} {gone pend kept : List (Msg F K)} (h : Flow g s gone pend kept) (hr : Zmq.Reach s'.rx)
    (h1 : s'.sent = s.sent) (h2 : s'.net = s.net) (h3 : s'.dropped = s.dropped) (h4 : s'.rx.arrived = s.rx.arrived)
    (ho : List.Sublist s'.received ((kept.take (done s'.rx)).map (fun m => (m.topic, m.event))))
    (hf : s'.failed = 0 → ∀ t p, AlwaysRegistered s' t p →
      s'.out.filter (fun x => decide (x.2.1 = t)) = ((kept.take (done s'.rx)).filter (fun m => decide (m.topic = t))).map (fun m => (p, m.topic, m.event))) :
    Flow g s' gone pend kept where
  split := by rw [h1]; exact h.split
  net := by rw [h2]; exact h.net
  sub := h.sub
  all := by rw [h3]; exact h.all
  arrived := by rw [h4]; exact h.arrived
  le := messages_done hr (by rw [h4]; exact h.arrived)
  order := ho
  full := hf

theorem Flow.exists {g : Cfg F K} {s : St F K β} (h : Reach g s) : s.overlap = false → AllCarried g s → ∃ gone pend kept, Flow g s gone pend kept := by
  induction h with
  | init =>
    intro _ _
    exact ⟨[], [], [], rfl, rfl, .slnil, fun _ => rfl, rfl, Nat.le_refl _, .slnil, fun _ _ _ _ => rfl⟩
  | @step s s' a h0 hs ih =>
    intro ho hc
    have hr' : Reach g s' := h0.step a hs
    have hsi := h0.sinv
    cases a with
    | begin u t k b =>
      simp only [ZmqE.step] at hs
      split at hs
      · split at hs
        · cases hs
          have ho' : s.overlap = false := by simp only [Bool.or_eq_false_iff] at ho; exact ho.1
          obtain ⟨gone, pend, kept, h⟩ := ih ho' hc
          exact ⟨gone, pend, kept, ⟨h.split, h.net, h.sub, h.all, h.arrived, h.le, h.order, h.full⟩⟩
        · cases hs; exact ih ho hc
      · cases hs
    | send1 u =>
      simp only [ZmqE.step] at hs
      split at hs
      · cases hs
        obtain ⟨gone, pend, kept, h⟩ := ih ho hc
        exact ⟨gone, pend, kept, ⟨h.split, h.net, h.sub, h.all, h.arrived, h.le, h.order, h.full⟩⟩
      · cases hs
    | send2 u =>
      simp only [ZmqE.step] at hs
      split at hs
      · rename_i t k c hu
        cases hs
        have ho' : s.overlap = false := ho
        obtain ⟨gone, pend, kept, h⟩ := ih ho' (fun m hm => hc m (List.mem_append.mpr (.inl hm)))
        have hp : s.part = [t] := by
          rcases hsi.one ho' with ⟨_, hi, _⟩ | ⟨_, w, hw, hx⟩
          · rw [hi u] at hu; cases hu
          · have hwu : u = w := Classical.byContradiction fun hne => by rw [hw u hne] at hu; cases hu
            subst hwu
            rcases hx with ⟨t', k', c', h1, h2⟩ | ⟨t', k', c', h1, h2⟩
            · rw [hu] at h1; cases h1
            · rw [hu] at h1; cases h1; exact h2
        refine ⟨gone, pend ++ [⟨t, c, k⟩], kept, ⟨?_, ?_, h.sub, h.all, h.arrived, h.le, h.order, h.full⟩⟩
        · show s.sent ++ _ = _
          rw [h.split, List.append_assoc]
        · show s.net ++ [s.part ++ [c]] = _
          rw [h.net, hp]; simp
      · cases hs
    | drop =>
      simp only [ZmqE.step] at hs
      split at hs
      · rename_i x r hn
        cases hs
        obtain ⟨gone, pend, kept, h⟩ := ih ho hc
        have hnet := h.net
        rw [hn] at hnet
        cases pend with
        | nil => cases hnet
        | cons m pend =>
          rw [List.map_cons] at hnet
          refine ⟨gone ++ [m], pend, kept, ⟨?_, ?_, ?_, ?_, h.arrived, h.le, h.order, h.full⟩⟩
          · show s.sent = _; rw [h.split]; simp
          · exact (List.cons.inj hnet).2
          · rw [List.filter_append]
            exact h.sub.trans (List.sublist_append_left _ _)
          · intro hd; exact absurd hd (Nat.succ_ne_zero _)
      · cases hs
    | deliver =>
      simp only [ZmqE.step] at hs
      split at hs
      · rename_i x fs r hn
        split at hs
        · rename_i hx
          rw [Option.map_eq_some_iff] at hs
          obtain ⟨q, hq, rfl⟩ := hs
          cases hq
          obtain ⟨gone, pend, kept, h⟩ := ih ho hc
          have hnet := h.net
          rw [hn] at hnet
          cases pend with
          | nil => cases hnet
          | cons m pend =>
            rw [List.map_cons] at hnet
            obtain ⟨e1, e2⟩ := List.cons.inj hnet
            obtain ⟨e3, e4⟩ := List.cons.inj e1
            have hgs : g.sub m.topic = true := by rw [← e3]; exact hx
            have hle : done s.rx ≤ kept.length := h.le
            refine ⟨gone ++ [m], pend, kept ++ [m], ⟨?_, e2, ?_, ?_, ?_, ?_, ?_, ?_⟩⟩
            · show s.sent = _; rw [h.split]; simp
            · rw [List.filter_append, List.filter_cons, if_pos hgs, List.filter_nil]
              exact h.sub.append (List.Sublist.refl _)
            · intro hd
              rw [List.filter_append, List.filter_cons, if_pos hgs, List.filter_nil, h.all hd]
            · show s.rx.arrived ++ (x :: fs) = _
              rw [h.arrived, e1, List.map_append, Zmq.framesOf_append]
              simp [Zmq.framesOf, pair]
            · show done s.rx ≤ _
              simp; omega
            · show List.Sublist s.received ((List.take (done s.rx) (kept ++ [m])).map _)
              rw [List.take_append_of_le_length hle]
              exact h.order
            · intro hf t p ha
              show _ = ((List.take (done s.rx) (kept ++ [m])).filter _).map _
              rw [List.take_append_of_le_length hle]
              exact h.full hf t p ha
        · rename_i hx
          cases hs
          obtain ⟨gone, pend, kept, h⟩ := ih ho hc
          have hnet := h.net
          rw [hn] at hnet
          cases pend with
          | nil => cases hnet
          | cons m pend =>
            rw [List.map_cons] at hnet
            obtain ⟨e1, e2⟩ := List.cons.inj hnet
            obtain ⟨e3, e4⟩ := List.cons.inj e1
            have hgs : ¬ g.sub m.topic = true := by rw [← e3]; exact hx
            refine ⟨gone ++ [m], pend, kept, ⟨?_, e2, ?_, ?_, h.arrived, h.le, h.order, h.full⟩⟩
            · show s.sent = _; rw [h.split]; simp
            · rw [List.filter_append, List.filter_cons, if_neg hgs, List.filter_nil, List.append_nil]
              exact h.sub
            · intro hd
              rw [List.filter_append, List.filter_cons, if_neg hgs, List.filter_nil, List.append_nil]
              exact h.all hd
      · cases hs
    | rx b =>
      have hb : (∀ ps, b ≠ .arrive ps) ∧ b ≠ .return ∧ b ≠ .throw ∧ ∃ q, Zmq.step s.rx b = some q ∧ s' = { s with rx := q } := by
        simp only [ZmqE.step] at hs
        split at hs
        · cases hs
        · cases hs
        · cases hs
        · rename_i h1 h2 h3
          rw [Option.map_eq_some_iff] at hs
          obtain ⟨q, hq, e⟩ := hs
          exact ⟨h1, h2, h3, q, hq, e.symm⟩
      obtain ⟨h1, h2, h3, q, hq, rfl⟩ := hb
      obtain ⟨gone, pend, kept, h⟩ := ih ho hc
      refine ⟨gone, pend, kept, ?_⟩
      have hd := rx_done hq h1 h2 h3
      obtain ⟨ha, hd⟩ := hd
      rcases hd with ⟨hd, hh⟩ | ⟨hd0, hd, t, c, hh⟩
      · refine h.of_rx hr'.rx rfl rfl rfl ha ?_ ?_
        · show List.Sublist s.received ((List.take (done q) kept).map _)
          rw [hd]; exact h.order
        · intro hf t p hreg
          show s.out.filter _ = ((List.take (done q) kept).filter _).map _
          rw [hd]; exact h.full hf t p (fun c r hm => hreg c r (hh _ hm))
      · have hp : (Zmq.messages s.rx.hist ++ [(t, c)]) <+: kept.map pair := by
          have := prefix_pairs (kept := kept) hr'.rx (by show q.arrived = _; rw [ha]; exact h.arrived)
          have e : Zmq.messages q.hist = Zmq.messages s.rx.hist ++ [(t, c)] := by rw [hh]; simp [Zmq.messages_append, Zmq.messages]
          rw [← e]; exact this
        obtain ⟨m, hm, e, et, ec⟩ := take_next hp
        rw [← hd0] at e
        refine h.of_rx hr'.rx rfl rfl rfl ha ?_ ?_
        · show List.Sublist s.received ((List.take (done q) kept).map _)
          rw [hd, e, List.map_append]
          exact h.order.trans (List.sublist_append_left _ _)
        · intro hf t' p hreg
          show s.out.filter _ = ((List.take (done q) kept).filter _).map _
          have hne : m.topic ≠ t' := by
            intro e'
            have := hreg c none (by show _ ∈ q.hist; rw [hh, ← e', et]; simp)
            cases this
          rw [hd, e, List.filter_append, List.filter_cons]
          rw [if_neg (by simp [hne]), List.filter_nil, List.append_nil]
          exact h.full hf t' p (fun c r hm => hreg c r (by show _ ∈ q.hist; rw [hh]; simp [hm]))
    | publish k0 =>
      simp only [ZmqE.step] at hs
      split at hs
      · rename_i t c p hp
        have key : ∀ q, (Zmq.step s.rx .return = some q ∨ Zmq.step s.rx .throw = some q) → s.overlap = false → AllCarried g s →
            ∃ gone pend kept, Flow g s gone pend kept ∧ q.arrived = s.rx.arrived ∧ q.hist = s.rx.hist ∧ done q = done s.rx + 1 ∧
              ∃ m ∈ kept, kept.take (done q) = kept.take (done s.rx) ++ [m] ∧ m.topic = t ∧ ∀ k0, (g.mp t).dec c k0 = some m.event := by
          intro q hq ho hc
          obtain ⟨gone, pend, kept, h⟩ := ih ho hc
          obtain ⟨ha, hh, hd, d, hm, hl⟩ := end_done h0.rinv hp hq
          have hpre := prefix_pairs (kept := kept) h0.rx h.arrived
          rw [hm] at hpre
          obtain ⟨m, hmem, e, et, ec⟩ := take_next hpre
          rw [hl, ← hd] at e
          refine ⟨gone, pend, kept, h, ha, hh, hd, m, hmem, e, et, ?_⟩
          intro k0
          have hms : m ∈ s.sent := by
            rw [h.split]
            exact List.mem_append.mpr (.inl ((List.mem_filter.mp (h.sub.subset hmem)).1))
          obtain ⟨b, hb⟩ := hsi.sent m hms
          have := hc m hms b m.content k0 hb
          rw [et, ec] at this
          exact this
        split at hs
        · rename_i k hk
          rw [Option.map_eq_some_iff] at hs
          obtain ⟨q, hq, rfl⟩ := hs
          obtain ⟨gone, pend, kept, h, ha, hh, hd, m, hmem, e, et, ed⟩ := key q (.inl hq) ho hc
          have ek : k = m.event := by have := ed k0; rw [hk] at this; exact Option.some.inj this
          refine ⟨gone, pend, kept, h.of_rx hr'.rx rfl rfl rfl ha ?_ ?_⟩
          · show List.Sublist ((s.out ++ [(p, t, k)]).map _) ((List.take (done q) kept).map _)
            rw [e, List.map_append, List.map_append]
            refine h.order.append ?_
            simp [et, ek]
          · intro hf t' p' hreg
            have hreg' : AlwaysRegistered s t' p' := fun c' r hm => hreg c' r (by show _ ∈ q.hist; rw [hh]; exact hm)
            have hfull := h.full hf t' p' hreg'
            show (s.out ++ [(p, t, k)]).filter _ = ((List.take (done q) kept).filter _).map _
            rw [e, List.filter_append, List.filter_append, List.map_append, hfull]
            congr 1
            by_cases h' : t = t'
            · subst h'
              have := hreg' c (some p) (h0.rinv.calling t c p hp).2
              cases this
              simp [et, ek]
            · simp [et, h']
        · rename_i hk
          rw [Option.map_eq_some_iff] at hs
          obtain ⟨q, hq, rfl⟩ := hs
          obtain ⟨gone, pend, kept, h, ha, hh, hd, m, hmem, e, et, ed⟩ := key q (.inr hq) ho hc
          rw [ed k0] at hk; cases hk
      · cases hs
    | fail k0 taken =>
      simp only [ZmqE.step] at hs
      split at hs
      · rename_i t c p hp
        have key : ∀ q, (Zmq.step s.rx .return = some q ∨ Zmq.step s.rx .throw = some q) → s.overlap = false → AllCarried g s →
            ∃ gone pend kept, Flow g s gone pend kept ∧ q.arrived = s.rx.arrived ∧ q.hist = s.rx.hist ∧ done q = done s.rx + 1 ∧
              ∃ m ∈ kept, kept.take (done q) = kept.take (done s.rx) ++ [m] ∧ m.topic = t ∧ ∀ k0, (g.mp t).dec c k0 = some m.event := by
          intro q hq ho hc
          obtain ⟨gone, pend, kept, h⟩ := ih ho hc
          obtain ⟨ha, hh, hd, d, hm, hl⟩ := end_done h0.rinv hp hq
          have hpre := prefix_pairs (kept := kept) h0.rx h.arrived
          rw [hm] at hpre
          obtain ⟨m, hmem, e, et, ec⟩ := take_next hpre
          rw [hl, ← hd] at e
          refine ⟨gone, pend, kept, h, ha, hh, hd, m, hmem, e, et, ?_⟩
          intro k0
          have hms : m ∈ s.sent := by
            rw [h.split]
            exact List.mem_append.mpr (.inl ((List.mem_filter.mp (h.sub.subset hmem)).1))
          obtain ⟨b, hb⟩ := hsi.sent m hms
          have := hc m hms b m.content k0 hb
          rw [et, ec] at this
          exact this
        split at hs
        · rename_i k hk
          rw [Option.map_eq_some_iff] at hs
          obtain ⟨q, hq, rfl⟩ := hs
          obtain ⟨gone, pend, kept, h, ha, hh, hd, m, hmem, e, et, ed⟩ := key q (.inr hq) ho hc
          have ek : k = m.event := by have := ed k0; rw [hk] at this; exact Option.some.inj this
          refine ⟨gone, pend, kept, h.of_rx hr'.rx rfl rfl rfl ha ?_ ?_⟩
          · show List.Sublist ((if taken then s.out ++ [(p, t, k)] else s.out).map _) ((List.take (done q) kept).map _)
            rw [e, List.map_append]
            cases taken
            · exact h.order.trans (List.sublist_append_left _ _)
            · rw [if_pos rfl, List.map_append]
              refine h.order.append ?_
              simp [et, ek]
          · intro hf; exact absurd hf (Nat.succ_ne_zero _)
        · rename_i hk
          rw [Option.map_eq_some_iff] at hs
          obtain ⟨q, hq, rfl⟩ := hs
          obtain ⟨gone, pend, kept, h, ha, hh, hd, m, hmem, e, et, ed⟩ := key q (.inr hq) ho hc
          rw [ed k0] at hk; cases hk
      · cases hs

end Verif.ZmqE
