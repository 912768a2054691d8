import Verif.Lemmas.FairExists
import Verif.Props.MuxLive
import Verif.Props.Live
import Verif.Props.LoopLive
import Verif.Props.MemLive
import Verif.Props.CqLive

/-!
C90: no thread of the library is ever stuck.

The delivery theorems (C69, C75, C77, C79, C81, C82, C86, C87 and others) speak of executions in which a thread "gets its turn again and again".  Here: such executions exist, whatever has
happened before.  In every reachable state a thread that is in its loop can take a step of its own, without waiting for any other thread; so the scheduler can serve it.
-/

namespace Verif.Mux
open Verif Verif.Disr Verif.Fair

variable {T : Type} {shared : Bool} {k : Nat} {v : T}

/-- **C90**: the thread of a subscriber of the data multiplexer can go on in every state in which it is in `run`; no listener has to throw for that. -/
theorem C90_subscriber (s : St T) (c : Nat) (hc : s.ring.cp c ≠ .idle) : CanMove (step shared k) OkAct (fun a => a = .look c ∨ a = .advance c ∨ a = .finish c) s := by
  cases h : s.ring.cp c with
  | idle => exact absurd h hc
  | wait nx =>
    refine ⟨.look c, .inl rfl, trivial, ?_⟩
    simp only [step, lift, SRing.step, h]
    split <;> rfl
  | batch nx av =>
    refine ⟨.advance c, .inr (.inl rfl), trivial, ?_⟩
    simp only [step, lift, SRing.step, h]
    split <;> rfl
  | handle nx av => exact ⟨.finish c, .inr (.inr rfl), trivial, by simp only [step, lift, SRing.step, h]; rfl⟩

/-- **C90**: the publisher of the data multiplexer, once in a call, can go on. -/
theorem C90_publisher (hk : k ≤ 30) {s : St T} (h : Reach shared k (fun _ => True) v s) (hp : (s.pc matches .idle) = false) :
    CanMove (step shared k) OkAct (fun a => a = .scan ∨ a = .write ∨ a = .publish) s := by
  have hi := h.pcInv hk
  unfold PcInv at hi
  cases e : s.pc with
  | idle => rw [e] at hp; cases hp
  | claiming op =>
    rw [e] at hi
    obtain ⟨rest, m, hi⟩ := hi
    refine ⟨.scan, .inl rfl, trivial, ?_⟩
    simp only [step, e, SRing.step, SRing.pstep, hi]
    cases rest with
    | nil => simp only; split <;> rfl
    | cons d ds => rfl
  | writing op x =>
    rw [e] at hi
    obtain ⟨_, h1, h2⟩ := hi
    refine ⟨.write, .inr (.inl rfl), trivial, ?_⟩
    cases op with
    | fresh v => simp only [step, e, SRing.step]; rw [if_pos ⟨h2, by omega⟩]; rfl
    | inplace f => simp only [step, e]; rfl
  | ready op x =>
    rw [e] at hi
    obtain ⟨_, h1, h2⟩ := hi
    refine ⟨.publish, .inr (.inr rfl), trivial, ?_⟩
    simp only [step, e, SRing.step]
    rw [if_pos ⟨h2, by omega⟩]; rfl

/-- **C90**: from every reachable state of a data multiplexer there is an execution in which the publisher comes to the end of its call and every subscriber that runs is served for ever: the
assumptions of C82 can be met, whatever has happened. -/
theorem C90_fair_execution (hk : k ≤ 30) {s : St T} (h : Reach shared k (fun _ => True) v s) :
    ∃ (σ : Nat → St T) (α : Nat → Option (Act T)), σ 0 = s ∧ Run shared k v σ α ∧ PubFair σ α ∧ (∀ c ∈ s.ring.gating, s.ring.cp c ≠ .idle → Alive σ α c 0) ∧
      ∀ i c, α i ≠ some (.throw c) := by
  obtain ⟨σ, α, h1, h2, h3, h4, h5⟩ := exists_fair (step := step shared k) (R := Reach shared k (fun _ => True) v) (ok := OkAct)
    (busy := fun t s => match t with
      | 0 => (s.pc matches .idle) = false
      | c + 1 => s.ring.cp c ≠ .idle)
    (own := fun t a => match t with
      | 0 => a = .scan ∨ a = .write ∨ a = .publish
      | c + 1 => a = .look c ∨ a = .advance c ∨ a = .finish c)
    (fun s a s' h _ hok hs => h.step trivial hok hs)
    (fun t s h hb => match t with
      | 0 => C90_publisher hk h hb
      | c + 1 => C90_subscriber s c hb) s h
  refine ⟨σ, α, h1, ⟨hk, h1 ▸ h, h2, fun i a ha => (h4 i a ha).1⟩, ?_, fun c hc hcp => ⟨by rw [h1]; exact hc, by rw [h1]; exact hcp, ?_, ?_⟩, ?_⟩
  · intro i hb
    obtain ⟨j, hj, a, ha, ho⟩ := h5 0 i hb
    refine ⟨j, hj, a, ha, ?_⟩
    rcases ho with ho | ho | ho
    · exact .inl ho
    · exact .inr (.inl ho)
    · exact .inr (.inr (.inr ho))
  · intro j _ e
    obtain ⟨_, t, ho⟩ := h4 j _ e
    cases t with
    | zero => rcases ho with ho | ho | ho <;> cases ho
    | succ t => rcases ho with ho | ho | ho <;> cases ho
  · intro i hb
    obtain ⟨j, hj, a, ha, ho⟩ := h5 (c + 1) i hb
    refine ⟨j, hj, a, ha, ?_⟩
    rcases ho with ho | ho | ho
    · exact .inl ho
    · exact .inr (.inl ho)
    · exact .inr (.inr (.inl ho))
  · intro j c e
    obtain ⟨_, t, ho⟩ := h4 j _ e
    cases t with
    | zero => rcases ho with ho | ho | ho <;> cases ho
    | succ t => rcases ho with ho | ho | ho <;> cases ho

end Verif.Mux

namespace Verif.Chain
open Verif Verif.Disr Verif.Fair

variable {V : Type} {cfg : Cfg}

/-- **C90**: a processor of a ring with dependent processors can go on in every state in which it is in `run`, whatever the processors it depends on do. -/
theorem C90_processor (s : St V) (p : Nat) (hc : s.cp p ≠ .idle) : CanMove (step cfg) (fun _ _ => True) (fun a => a = .look p ∨ a = .advance p ∨ a = .finish p) s := by
  cases h : s.cp p with
  | idle => exact absurd h hc
  | wait nx =>
    refine ⟨.look p, .inl rfl, trivial, ?_⟩
    simp only [step, look, h]
    (repeat' split) <;> rfl
  | scan nx rest m =>
    refine ⟨.look p, .inl rfl, trivial, ?_⟩
    simp only [step, look, h]
    cases rest with
    | nil => simp only; split <;> rfl
    | cons d ds => rfl
  | batch nx av =>
    refine ⟨.advance p, .inr (.inl rfl), trivial, ?_⟩
    simp only [step, h]
    (repeat' split) <;> rfl
  | handle nx av => exact ⟨.finish p, .inr (.inr rfl), trivial, by simp only [step, h]; rfl⟩

/-- **C90**: the producer, once in `next` or `try_next`, can go on; it may have to look again for ever if a processor does not move (C71). -/
theorem C90_producer (s : St V) (hp : s.pp ≠ .idle) : CanMove (step cfg) (fun _ _ => True) (fun a => a = .pstep) s := by
  refine ⟨.pstep, rfl, trivial, ?_⟩
  simp only [step]
  match h : s.pp with
  | .idle => exact absurd h hp
  | .nScan n [] m => simp only [pstep, h]; split <;> rfl
  | .nScan n (c :: rest) m => simp only [pstep, h]; rfl
  | .tScan n [] m => simp only [pstep, h]; split <;> rfl
  | .tScan n (c :: rest) m => simp only [pstep, h]; rfl

/-- What thread 0 (the producer) and thread `p + 1` (processor `p`) do. -/
def served : Nat → Act V → Prop
  | 0, a => a = .pstep
  | p + 1, a => a = .look p ∨ a = .advance p ∨ a = .finish p

theorem late_own {s s' : St V} {a : Act V} {t : Nat} (ha : served t a) (hs : step cfg s a = some s') : s'.late = s.late := by
  cases t with
  | zero =>
    cases ha
    simp only [step, pstep] at hs
    (repeat' split at hs) <;> cases hs <;> rfl
  | succ p =>
    rcases ha with rfl | rfl | rfl
    · simp only [step, look] at hs
      (repeat' split at hs) <;> cases hs <;> rfl
    · simp only [step] at hs
      (repeat' split at hs) <;> cases hs <;> rfl
    · simp only [step] at hs
      (repeat' split at hs) <;> cases hs <;> rfl

/-- **C90**: from every reachable state there is an execution in which the producer and every processor that runs are served for ever, and no handler throws: the assumptions of C71 can be met. -/
theorem C90_fair_execution (hk : cfg.k ≤ 30) {v : V} {s : St V} (h : Reach cfg v s) (hl : s.late = false) :
    ∃ (σ : Nat → St V) (α : Nat → Option (Act V)), σ 0 = s ∧ Run cfg v σ α ∧ (∀ p, s.cp p ≠ .idle → Alive σ α p 0) ∧
      FairTo (fun s : St V => s.pp ≠ .idle) (fun a => a = .pstep) σ α ∧ ∀ i p, α i ≠ some (.throw p) := by
  obtain ⟨σ, α, h1, h2, h3, h4, h5⟩ := exists_fair (step := step cfg) (R := fun s => Reach cfg v s ∧ s.late = false) (ok := fun _ _ => True)
    (busy := fun t s => match t with
      | 0 => s.pp ≠ .idle
      | p + 1 => s.cp p ≠ .idle) (own := served)
    (fun s a s' h ho _ hs => ⟨h.1.step hs, by obtain ⟨t, ho⟩ := ho; rw [late_own ho hs]; exact h.2⟩)
    (fun t s _ hb => match t with
      | 0 => C90_producer s hb
      | p + 1 => C90_processor s p hb) s ⟨h, hl⟩
  have hno : ∀ {j a}, α j = some a → (∀ t, ¬ served t a) → False := fun e h => by
    obtain ⟨_, t, ho⟩ := h4 _ _ e
    exact h t ho
  refine ⟨σ, α, h1, ⟨hk, h1 ▸ h, h2, fun i => (h3 i).2⟩, fun p hp => ⟨by rw [h1]; exact hp, ?_, ?_⟩, h5 0, ?_⟩
  · intro j _ e
    exact hno e fun t ho => by
      cases t with
      | zero => cases ho
      | succ t => rcases ho with ho | ho | ho <;> cases ho
  · intro i hb
    obtain ⟨j, hj, a, ha, ho⟩ := h5 (p + 1) i hb
    refine ⟨j, hj, a, ha, ?_⟩
    rcases ho with ho | ho | ho
    · exact .inl ho
    · exact .inr (.inl ho)
    · exact .inr (.inr (.inl ho))
  · intro j c e
    exact hno e fun t ho => by
      cases t with
      | zero => cases ho
      | succ t => rcases ho with ho | ho | ho <;> cases ho

end Verif.Chain

namespace Verif.EvLoop
open Verif Verif.Disr Verif.Fair

variable {D : Type} {k : Nat}

/-- **C90**: the thread of the event loop can go on in every state in which the loop runs, whatever the publishers do; nothing has to be thrown for that. -/
theorem C90_loop (s : St D) (hc : s.ring.cp 0 ≠ .idle) : CanMove (step k) OkAct (fun a => a = .look ∨ a = .scan ∨ a = .advance ∨ a = .finish) s := by
  cases h : s.ring.cp 0 with
  | idle => exact absurd h hc
  | wait nx =>
    refine ⟨.look, .inl rfl, trivial, ?_⟩
    simp only [step, lift, MRing.step, h]
    split <;> rfl
  | scan nx hi i =>
    refine ⟨.scan, .inr (.inl rfl), trivial, ?_⟩
    simp only [step, lift, MRing.step, h]
    (repeat' split) <;> rfl
  | batch nx av =>
    refine ⟨.advance, .inr (.inr (.inl rfl)), trivial, ?_⟩
    simp only [step, lift, MRing.step, h]
    split <;> rfl
  | handle nx av => exact ⟨.finish, .inr (.inr (.inr rfl)), trivial, by simp only [step, lift, MRing.step, h]; rfl⟩

/-- **C90**: a thread inside `publish` of an event loop can go on, whether the loop runs or not and whatever other publishers do (`publish` does not wait: it fails when there is
no room), as long as fewer than 2^31 events have been published (C24). -/
theorem C90_publisher (hk : k ≤ 30) {P : St D → Act D → Prop} {s : St D} (h : Reach k P s) {p : Nat} (hp : s.pc p ≠ .idle) (hb : s.ring.cursor + 1 < 2 ^ 31) :
    CanMove (step k) OkAct (PubTurn p) s := by
  have hi := h.pcInv p
  have hl := h.lInv hk
  match e : s.pc p with
  | .idle => exact absurd e hp
  | .claiming t d =>
    rw [e] at hi
    refine ⟨.claim p, .inl rfl, ?_, ?_⟩
    · intro cur hc
      have := (h.inv hk).prod p
      rw [hc] at this
      simp only [MRing.PInv] at this
      omega
    · simp only [step, e, MRing.step, Option.isSome_map]
      simp only [PcOk] at hi
      match e2 : s.ring.pp p with
      | .tLoad n => simp only [MRing.pstep, e2]; rfl
      | .tCache n cur => simp only [MRing.pstep, e2]; split <;> rfl
      | .tScan n cur [] m => simp only [MRing.pstep, e2]; rfl
      | .tScan n cur (c :: rest) m => simp only [MRing.pstep, e2]; rfl
      | .tSet n cur m => simp only [MRing.pstep, e2]; split <;> rfl
      | .tCas n cur => simp only [MRing.pstep, e2]; split <;> rfl
      | .idle | .nLoad _ | .nCache .. | .nScan .. | .nSet .. | .nCas .. => rw [e2] at hi; exact hi.elim
  | .claimed t d x =>
    have := (hl.pown p t d x (.inl e)).1
    refine ⟨.write p, .inr (.inl rfl), trivial, ?_⟩
    simp only [step, e, MRing.step, if_pos this]; rfl
  | .written t d x =>
    have := (hl.pown p t d x (.inr e)).1
    refine ⟨.publish p, .inr (.inr rfl), trivial, ?_⟩
    simp only [step, e, MRing.step, if_pos this]; rfl

/-- What thread 0 (the loop) and thread `p + 1` (publisher `p`) do. -/
def served : Nat → Act D → Prop
  | 0, a => a = .look ∨ a = .scan ∨ a = .advance ∨ a = .finish
  | p + 1, a => PubTurn p a

theorem below_step (hk : k ≤ 30) {s s' : St D} {a : Act D} (h : Reach k (fun _ _ => True) s) (hb : Below s) {t : Nat} (ha : served t a) (hs : step k s a = some s') : Below s' := by
  obtain ⟨L, h1, h2⟩ := hb
  have e := step_eff h.pcInv hs
  have same : s'.pc = s.pc → s'.ring.cursor = s.ring.cursor → Below s' := fun e1 e2 => ⟨L, by rw [e1]; exact h1, by rw [e2]; exact h2⟩
  have less : ∀ p, (∀ t d, s'.pc p ≠ .claiming t d) → (∀ q, q ≠ p → s'.pc q = s.pc q) → s'.ring.cursor = s.ring.cursor → Below s' := fun p e0 e1 e2 =>
    ⟨L, fun q t d hq => by
      by_cases hqp : q = p
      · subst hqp; exact absurd hq (e0 t d)
      · rw [e1 q hqp] at hq; exact h1 q t d hq, by rw [e2]; exact h2⟩
  have hcall : ∀ p t' d, a ≠ .call p t' d := by
    rintro p t' d rfl
    cases t with
    | zero => rcases ha with ha | ha | ha | ha <;> cases ha
    | succ t => rcases ha with ha | ha | ha <;> cases ha
  cases e with
  | call p t d _ h => exact absurd rfl (hcall _ _ _)
  | got p t d e1 e2 h =>
    subst h
    have hm := h1 p t d e1
    refine ⟨L.erase p, fun q t' d' hq => ?_, ?_⟩
    · by_cases hqp : q = p
      · subst hqp
        simp only [upd_same] at hq
        cases hq
      · simp only [upd_other _ _ hqp] at hq
        exact (List.mem_erase_of_ne hqp).mpr (h1 q t' d' hq)
    · have hl := List.length_erase_of_mem hm
      have := List.length_pos_of_mem hm
      show s.ring.cursor + 1 + _ + 1 < _
      omega
  | refused p t d m e1 h =>
    subst h
    exact less p (fun t d e => by simp only [upd_same] at e; cases e) (fun q hq => upd_other _ _ hq) rfl
  | more p t d m pc' e1 e2 e3 h => subst h; exact same rfl rfl
  | weak p t d cur e1 e2 h => subst h; exact same rfl rfl
  | write p t d x e1 e2 h =>
    subst h
    exact less p (fun t d e => by simp only [upd_same] at e; cases e) (fun q hq => upd_other _ _ hq) rfl
  | publish p t d x e1 e2 h =>
    subst h
    exact less p (fun t d e => by simp only [upd_same] at e; cases e) (fun q hq => upd_other _ _ hq) rfl
  | _ => subst s'; exact same rfl rfl

/-- **C90**: from every reachable state of an event loop there is an execution in which the loop, if it runs, is served for ever, every publisher is served as long as it is in `publish`,
and no listener throws: the assumptions of C72 can be met.  (The publishers under way have to stay below the limit of C24: `Below`.) -/
theorem C90_fair_execution (hk : k ≤ 30) {s : St D} (h : Reach k (fun _ _ => True) s) (hb : Below s) :
    ∃ (σ : Nat → St D) (α : Nat → Option (Act D)), σ 0 = s ∧ Run k σ α ∧ (∀ p, PubFair σ α p) ∧ (s.ring.cp 0 ≠ .idle → LoopAlive σ α 0) ∧ ∀ i, α i ≠ some .throw := by
  obtain ⟨σ, α, h1, h2, h3, h4, h5⟩ := exists_fair (step := step k) (R := fun s => Reach k (fun _ _ => True) s ∧ Below s) (ok := OkAct)
    (busy := fun t s => match t with
      | 0 => s.ring.cp 0 ≠ .idle
      | p + 1 => s.pc p ≠ .idle) (own := served)
    (fun s a s' h ho hok hs => ⟨h.1.step trivial hok hs, by obtain ⟨t, ho⟩ := ho; exact below_step hk h.1 h.2 ho hs⟩)
    (fun t s h hb => match t with
      | 0 => C90_loop s hb
      | p + 1 => C90_publisher hk h.1 hb (by obtain ⟨L, _, hl⟩ := h.2; omega)) s ⟨h, hb⟩
  have hno : ∀ {j a}, α j = some a → (∀ t, ¬ served t a) → False := fun e h => by
    obtain ⟨_, t, ho⟩ := h4 _ _ e
    exact h t ho
  refine ⟨σ, α, h1, ⟨hk, h1 ▸ h, h2, fun i a e => (h4 i a e).1⟩, fun p => ⟨h5 (p + 1), 0, ?_⟩, fun hc => ⟨by rw [h1]; exact hc, ?_, ?_⟩, ?_⟩
  · intro j _ e
    exact hno e fun t ho => by
      cases t with
      | zero => rcases ho with ho | ho | ho | ho <;> cases ho
      | succ t => rcases ho with ho | ho | ho <;> cases ho
  · intro j _ e
    exact hno e fun t ho => by
      cases t with
      | zero => rcases ho with ho | ho | ho | ho <;> cases ho
      | succ t => rcases ho with ho | ho | ho <;> cases ho
  · intro i hb
    obtain ⟨j, hj, a, ha, ho⟩ := h5 0 i hb
    refine ⟨j, hj, a, ha, ?_⟩
    rcases ho with ho | ho | ho | ho
    · exact .inl ho
    · exact .inr (.inl ho)
    · exact .inr (.inr (.inl ho))
    · exact .inr (.inr (.inr (.inl ho)))
  · intro j e
    exact hno e fun t ho => by
      cases t with
      | zero => rcases ho with ho | ho | ho | ho <;> cases ho
      | succ t => rcases ho with ho | ho | ho <;> cases ho

end Verif.EvLoop
