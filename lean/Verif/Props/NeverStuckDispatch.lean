import Verif.Props.NeverStuck
import Verif.Props.MuxDispatchLive
import Verif.Props.ElDispatchLive
import Verif.Props.ElSchedLive

/-!
C90 with the listeners: the thread of a subscriber of the data multiplexer and the thread of an event loop can always go on, also inside the calls of their listeners.
-/

namespace Verif.MuxD
open Verif Verif.Disr ElD MemD Verif.Fair

variable {T : Type} {shared : Bool} {k c : Nat} {v : T} {s0 : Mux.St T} {n : String} {ct : Bool}

/-- An event that is being emitted is recorded. -/
theorem handle_dl {s : Mux.St T} (h : Mux.Reach shared k (fun _ => True) v s) : ∀ c x, s.ring.cp c = .handle x x → s.dl c ≠ [] := by
  induction h with
  | init => intro c x h; cases h
  | @step s s' a _ _ hok hs ih =>
    intro c x hx
    have sub : ∀ d, a = .subscribe d → s'.ring.cp c = s.ring.cp c := by
      rintro d rfl
      simp only [Mux.step, SRing.step] at hs
      (repeat' split at hs) <;> first | (cases hs; done) | (cases hs; rfl) | (obtain ⟨_, h1, rfl⟩ := Option.map_eq_some_iff.mp hs; cases h1; rfl)
    cases peff (c := c) hs with
    | same _ h1 h2 => rw [h1] at hx; rw [h2]; exact ih c x hx
    | subscribe => rw [sub c rfl] at hx; rw [hok.2] at hx; cases hx
    | run y h1 h2 h3 => rw [h2] at hx; cases hx
    | look nx av h1 h2 h3 => rw [h2] at hx; cases hx
    | event nx h1 h2 h3 => rw [h3]; exact List.cons_ne_nil _ _
    | pass nx av h0 h1 h2 h3 =>
      rcases h2 with h2 | h2
      · rw [h2] at hx; cases hx; exact absurd rfl h0
      · rw [h2] at hx; cases hx
    | finish nx av h1 h2 h3 => rw [h2] at hx; cases hx
    | throw nx h1 h2 h3 => rw [h2] at hx; cases hx
    | leave nx h1 h2 h3 => rw [h2] at hx; cases hx

/-- Turns of the thread in which no listener throws. -/
def Serve (a : MemD.Act (chan shared k c s0)) : Prop := Turn c a ∧ a ≠ .call false

/-- **C90**: the thread of a subscriber of the data multiplexer, with its listeners, can go on in every reachable state in which it is in `run`, whatever other threads do. -/
theorem C90_subscriber (hk : k ≤ 30) (h0 : Created shared k v c s0) {s : Sub shared k c s0} (h : Reach n ct .safe s) (hc : (mux s).ring.cp c ≠ .idle) :
    CanMove (MemD.step n ct) MemD.Ok (Serve (shared := shared) (k := k) (c := c) (s0 := s0)) s := by
  obtain ⟨x, ls, _, hi⟩ := h.inv h0.lawful
  obtain ⟨hm, _⟩ := ch_facts hk h0 (s := mux s) h.ch
  match hd : s.del with
  | some (d, []) =>
    obtain ⟨h1, h2⟩ := hi.hand d _ hd
    obtain ⟨⟨s', h3⟩, _⟩ := h0.lawful.can _ _ h2 h1
    exact ⟨.fin, ⟨trivial, nofun⟩, trivial, by simp only [MemD.step, hd, h3]; rfl⟩
  | some (d, t :: rest) =>
    obtain ⟨h1, h2⟩ := hi.hand d _ hd
    obtain ⟨_, s', h3⟩ := h0.lawful.can _ _ h2 h1
    refine ⟨.call true, ⟨trivial, nofun⟩, trivial, ?_⟩
    simp only [MemD.step, hd]
    rw [if_neg (by simp)]
    split
    · split
      · rfl
      · simp only [MemD.thrown, h3]; rfl
    · rfl
  | none =>
    have inner : ∀ {a : Act T}, (chan shared k c s0).own a = false → Turn c (.ch a : MemD.Act (chan shared k c s0)) → (chStep shared k c (mux s) a).isSome = true →
        CanMove (MemD.step n ct) MemD.Ok (Serve (shared := shared) (k := k) (c := c) (s0 := s0)) s := by
      intro a ho ht hs
      refine ⟨.ch a, ⟨ht, nofun⟩, trivial, ?_⟩
      have hs : ((chan shared k c s0).step s.ch a).isSome = true := hs
      simp only [MemD.step, ho]
      simpa using hs
    cases hcp : (mux s).ring.cp c with
    | idle => exact absurd hcp hc
    | wait nx =>
      refine inner (a := .mux (.look c)) rfl rfl ?_
      simp only [chStep, others, Mux.step, Mux.lift, SRing.step, hcp]
      split <;> rfl
    | batch nx av =>
      refine inner (a := .mux (.advance c)) rfl rfl ?_
      simp only [chStep, others, Mux.step, Mux.lift, SRing.step, hcp]
      split <;> rfl
    | handle y av =>
      by_cases e : y = av
      · subst e
        obtain ⟨e, l, hdl⟩ := List.exists_cons_of_ne_nil (handle_dl hm c y hcp)
        have hh : (chan shared k c s0).hand s.ch = some (e.1, e.2.1) := (emitted_hand hcp hdl).1
        refine ⟨.take, ⟨trivial, nofun⟩, trivial, ?_⟩
        simp only [MemD.step, hd, hh]
        rfl
      · refine inner (a := .skip) rfl trivial ?_
        simp only [chStep, hcp, if_neg e, Mux.step, Mux.lift, SRing.step]
        rfl

/-- **C90**: from every reachable state of a subscriber with its listeners there is an execution in which its thread is served for ever and no listener throws: the assumptions of C87
can be met. -/
theorem C90_fair_execution (hk : k ≤ 30) (h0 : Created shared k v c s0) {s : Sub shared k c s0} (h : Reach n ct .safe s) (hc : (mux s).ring.cp c ≠ .idle) :
    ∃ (σ : Nat → Sub shared k c s0) (α : Nat → Option (MemD.Act (chan shared k c s0))), σ 0 = s ∧ MemD.Run (chan shared k c s0) n ct .safe σ α ∧ Alive σ α 0 ∧
      ∀ i, α i ≠ some (.call false) := by
  obtain ⟨σ, α, h1, h2, h3, h4, h5⟩ := exists_fair (step := MemD.step n ct) (R := fun s : Sub shared k c s0 => Reach n ct .safe s) (ok := MemD.Ok)
    (busy := fun _ s => (mux s).ring.cp c ≠ .idle) (own := fun _ => Serve (shared := shared) (k := k) (c := c) (s0 := s0))
    (fun s a s' h ho hok hs => h.step hok hs)
    (fun t s h hb => C90_subscriber hk h0 h hb) s h
  refine ⟨σ, α, h1, ⟨h1 ▸ h, h2, fun i a e => (h4 i a e).1, fun i => trivial⟩, ⟨by rw [h1]; exact hc, ?_, ?_⟩, ?_⟩
  · intro j _ e
    obtain ⟨_, _, ho, _⟩ := h4 _ _ e
    exact ho
  · intro i hb
    obtain ⟨j, hj, a, e, ho⟩ := h5 0 i hb
    exact ⟨j, hj, a, e, ho.1⟩
  · intro j e
    obtain ⟨_, _, _, ho⟩ := h4 _ _ e
    exact ho rfl

end Verif.MuxD

namespace Verif.ElD
open Verif Verif.Disr Verif.Fair

variable {D F : Type} [DecidableEq D] [DecidableEq F] {k : Nat} {c : Bool} {kind : Kind}

/-- What thread 0 (the loop) and thread `p + 1` (publisher `p`) do; no listener throws. -/
def Served : Nat → Act D F → Prop
  | 0, x => x = .call true ∨ x = .loop .look ∨ x = .loop .scan ∨ x = .loop .advance ∨ x = .loop .finish
  | p + 1, x => ∃ a, x = .loop a ∧ EvLoop.PubTurn p a

/-- **C90**: the thread of an event loop, with its listeners and the functions of its scheduler, can go on in every reachable state in which the loop runs, whatever other threads do. -/
theorem C90_loop (hk : k ≤ 30) {s : St D F} (h : Reach k c kind OkDrained s) (hc : s.loop.ring.cp 0 ≠ .idle) : CanMove (step k c) OkDrained (Served 0) s := by
  obtain ⟨x, ls, _, hi⟩ := Reach.inv hk (Reach.mono (fun _ _ h => h.1) h)
  have inner : ∀ {a}, a = EvLoop.Act.look ∨ a = .scan ∨ a = .advance → (EvLoop.step k s.loop a).isSome = true → CanMove (step k c) OkDrained (Served 0) s := by
    intro a ha hs
    refine ⟨.loop a, ?_, ⟨⟨?_, trivial⟩, ?_⟩, ?_⟩
    · rcases ha with rfl | rfl | rfl
      · exact .inr (.inl rfl)
      · exact .inr (.inr (.inl rfl))
      · exact .inr (.inr (.inr (.inl rfl)))
    · rcases ha with rfl | rfl | rfl <;> trivial
    · intro b e
      cases e
      rcases ha with rfl | rfl | rfl <;> (intro e; cases e)
    · rcases ha with rfl | rfl | rfl
      · simpa [step, mayPublish] using hs
      · simpa [step, mayPublish] using hs
      · obtain ⟨l, hl⟩ := Option.isSome_iff_exists.mp hs
        simp only [step, hl]
        split <;> rfl
  cases hcp : s.loop.ring.cp 0 with
  | idle => exact absurd hcp hc
  | wait nx =>
    refine inner (.inl rfl) ?_
    simp only [EvLoop.step, EvLoop.lift, MRing.step, hcp]
    split <;> rfl
  | scan nx hi i =>
    refine inner (.inr (.inl rfl)) ?_
    simp only [EvLoop.step, EvLoop.lift, MRing.step, hcp]
    (repeat' split) <;> rfl
  | batch nx av =>
    refine inner (.inr (.inr rfl)) ?_
    simp only [EvLoop.step, EvLoop.lift, MRing.step, hcp]
    split <;> rfl
  | handle nx av =>
    obtain ⟨⟨msg, todo⟩, hd⟩ := Option.isSome_iff_exists.mp (hi.hd.mpr ⟨nx, av, hcp⟩)
    have hcur := hi.cur
    rw [hd] at hcur
    match x.cur, hcur with
    | some (n, m, ents), hcur =>
      obtain ⟨h1, _, _⟩ := hcur
      have h1 : msg = some m := h1
      subst h1
      match todo, hd with
      | [], hd =>
        refine ⟨.loop .finish, .inr (.inr (.inr (.inr rfl))), ⟨⟨trivial, trivial⟩, fun b e => by cases e; intro e; cases e⟩, ?_⟩
        simp only [step, hd, EvLoop.step, EvLoop.lift, MRing.step, hcp]
        rfl
      | (i, t) :: rest, hd =>
        refine ⟨.call true, .inl rfl, ⟨⟨trivial, trivial⟩, fun b e => by cases e⟩, ?_⟩
        have ht : ∀ s1 : St D F, s1.loop = s.loop → (thrown k s1).isSome = true := by
          intro s1 e
          simp only [thrown, e, EvLoop.step, EvLoop.lift, MRing.step, hcp]
          rfl
        simp only [step, hd]
        split
        · rfl
        · rw [if_neg (by simp)]
          split
          · split
            · rfl
            · exact ht _ rfl
          · rfl

/-- **C90**: a thread inside `publish` of an event loop with its subscribers can go on. -/
theorem C90_publisher (hk : k ≤ 30) {s : St D F} (h : Reach k c kind OkDrained s) {p : Nat} (hp : s.loop.pc p ≠ .idle) (hb : s.loop.ring.cursor + 1 < 2 ^ 31) :
    CanMove (step k c) OkDrained (Served (p + 1)) s := by
  obtain ⟨x, ls, _, hi⟩ := Reach.inv hk (Reach.mono (fun _ _ h => h.1) h)
  obtain ⟨a, h1, h2, h3⟩ := EvLoop.C90_publisher hk hi.loop hp hb
  refine ⟨.loop a, ⟨a, rfl, h1⟩, ⟨⟨h2, trivial⟩, ?_⟩, ?_⟩
  · intro b e
    cases e
    rcases h1 with rfl | rfl | rfl <;> (intro e; cases e)
  · rcases h1 with rfl | rfl | rfl <;> simpa [step, mayPublish] using h3

omit [DecidableEq D] [DecidableEq F] in
theorem below_step (hk : k ≤ 30) {s s' : St D F} {x : Act D F} (h : EvLoop.Reach k (fun _ _ => True) s.loop) (hb : EvLoop.Below s.loop) {t : Nat} (hx : Served t x)
    (hs : step k c s x = some s') : EvLoop.Below s'.loop := by
  have inner : ∀ {a l}, EvLoop.served t a → EvLoop.step k s.loop a = some l → EvLoop.Below l := fun ha hl => EvLoop.below_step hk h hb ha hl
  have thr : ∀ {s1 s2 : St D F}, s1.loop = s.loop → thrown k s1 = some s2 → EvLoop.Below s2.loop := by
    intro s1 s2 e ht
    simp only [thrown, e] at ht
    obtain ⟨l, hl, rfl⟩ := Option.map_eq_some_iff.mp ht
    have : l.pc = s.loop.pc ∧ l.ring.cursor = s.loop.ring.cursor := by
      simp only [EvLoop.step, EvLoop.lift, MRing.step] at hl
      split at hl
      · cases hl; exact ⟨rfl, rfl⟩
      · cases hl
    obtain ⟨L, g1, g2⟩ := hb
    exact ⟨L, by simp only [this.1]; exact g1, by simp only [this.2]; exact g2⟩
  cases t with
  | zero =>
    rcases hx with rfl | rfl | rfl | rfl | rfl
    · simp only [step] at hs
      split at hs
      · split at hs
        · cases hs; exact hb
        · rw [if_neg (by simp)] at hs
          split at hs
          · split at hs
            · cases hs; exact hb
            · exact thr (by rfl) hs
          · cases hs; exact hb
      · cases hs
    · simp only [step, mayPublish] at hs
      obtain ⟨l, hl, rfl⟩ := Option.map_eq_some_iff.mp hs
      exact inner (.inl rfl) hl
    · simp only [step, mayPublish] at hs
      obtain ⟨l, hl, rfl⟩ := Option.map_eq_some_iff.mp hs
      exact inner (.inr (.inl rfl)) hl
    · simp only [step] at hs
      split at hs
      · cases hs
      · rename_i l hl
        have := inner (a := .advance) (.inr (.inr (.inl rfl))) hl
        split at hs <;> cases hs <;> exact this
    · simp only [step] at hs
      split at hs
      · obtain ⟨l, hl, rfl⟩ := Option.map_eq_some_iff.mp hs
        exact inner (.inr (.inr (.inr rfl))) hl
      · cases hs
  | succ p =>
    obtain ⟨a, rfl, ha⟩ := hx
    have : ∃ l, EvLoop.step k s.loop a = some l ∧ s'.loop = l := by
      rcases ha with rfl | rfl | rfl <;>
      · simp only [step, mayPublish] at hs
        obtain ⟨l, hl, rfl⟩ := Option.map_eq_some_iff.mp hs
        exact ⟨l, hl, rfl⟩
    obtain ⟨l, hl, e⟩ := this
    rw [e]
    exact inner ha hl

/-- **C90**: from every reachable state of an event loop with its subscribers there is an execution in which the loop, if it runs, is served for ever, every publisher is served as long as
it is in `publish`, and no listener throws: the assumptions of C79 can be met. -/
theorem C90_fair_execution (hk : k ≤ 30) {s : St D F} (h : Reach k c kind OkDrained s) (hb : EvLoop.Below s.loop) :
    ∃ (σ : Nat → St D F) (α : Nat → Option (Act D F)), σ 0 = s ∧ Run k c kind σ α ∧ (∀ p, PubFair σ α p) ∧ (s.loop.ring.cp 0 ≠ .idle → LoopAlive σ α 0) ∧
      ∀ i, α i ≠ some (.call false) := by
  obtain ⟨σ, α, h1, h2, h3, h4, h5⟩ := exists_fair (step := step k c) (R := fun s : St D F => Reach k c kind OkDrained s ∧ EvLoop.Below s.loop) (ok := OkDrained)
    (busy := fun t s => match t with
      | 0 => s.loop.ring.cp 0 ≠ .idle
      | p + 1 => s.loop.pc p ≠ .idle) (own := Served)
    (fun s a s' h ho hok hs => ⟨h.1.step hok hs, by
      obtain ⟨t, ho⟩ := ho
      obtain ⟨x, ls, _, hi⟩ := Reach.inv hk (Reach.mono (fun _ _ h => h.1) h.1)
      exact below_step hk hi.loop h.2 ho hs⟩)
    (fun t s h hb => match t with
      | 0 => C90_loop hk h.1 hb
      | p + 1 => C90_publisher hk h.1 hb (by obtain ⟨L, _, hl⟩ := h.2; omega)) s ⟨h, hb⟩
  have hno : ∀ {j a}, α j = some a → (∀ t, ¬ Served t a) → False := fun e h => by
    obtain ⟨_, t, ho⟩ := h4 _ _ e
    exact h t ho
  refine ⟨σ, α, h1, ⟨hk, h1 ▸ h, h2, fun i a e => (h4 i a e).1⟩, fun p => ⟨h5 (p + 1), 0, ?_⟩, fun hc => ⟨by rw [h1]; exact hc, ?_, ?_⟩, ?_⟩
  · intro j _ e
    exact hno e fun t ho => by
      cases t with
      | zero => rcases ho with ho | ho | ho | ho | ho <;> cases ho
      | succ t => obtain ⟨a, e, ho | ho | ho⟩ := ho <;> cases ho <;> cases e
  · intro j _ e
    exact hno e fun t ho => by
      cases t with
      | zero => rcases ho with ho | ho | ho | ho | ho <;> cases ho
      | succ t => obtain ⟨a, e, ho | ho | ho⟩ := ho <;> cases ho <;> cases e
  · intro i hb
    obtain ⟨j, hj, a, ha, ho⟩ := h5 0 i hb
    refine ⟨j, hj, a, ha, ?_⟩
    rcases ho with rfl | rfl | rfl | rfl | rfl
    · trivial
    · exact .inl rfl
    · exact .inr (.inl rfl)
    · exact .inr (.inr (.inl rfl))
    · exact .inr (.inr (.inr (.inl rfl)))
  · intro j e
    exact hno e fun t ho => by
      cases t with
      | zero => rcases ho with ho | ho | ho | ho | ho <;> cases ho
      | succ t => obtain ⟨a, e, _⟩ := ho; cases e

end Verif.ElD

namespace Verif.ElS
open Verif Verif.Disr Verif.Fair

variable {D κ : Type} [DecidableEq D] [DecidableEq κ] {k : Nat} {c : Bool} {kind : ElD.Kind}

/-- What thread 0 (the loop) and thread `p + 1` (publisher `p`: a task or a user) do; nothing that is called throws. -/
def Served : Nat → Act D κ → Prop
  | 0, x => x = .enter ∨ x = .leave true ∨ ∃ a, x = .el (.loop a) ∧ (a = .look ∨ a = .scan ∨ a = .advance ∨ a = .finish)
  | p + 1, x => ∃ a, x = .el (.loop a) ∧ EvLoop.PubTurn p a

/-- **C90**: the thread of an event loop with its scheduler can go on in every reachable state in which the loop runs and has not called `stopScheduledTask`, whatever the threads of the
tasks and the users do. -/
theorem C90_loop (hk : k ≤ 30) {s : St D κ} (h : Reach k c kind s) (hw : NotWaiting s) (hc : s.el.loop.ring.cp 0 ≠ .idle) : CanMove (step k c) Ok (Served 0) s := by
  obtain ⟨x, ls, _, hi⟩ := ElD.Reach.inv hk (ElD.Reach.mono (fun _ _ h => h.1) h.el)
  obtain ⟨a, h1, h2, h3⟩ := ElD.C90_loop hk h.el hc
  have hctl : (decide (s.sch.ctl = .idle) || !s.byLoop) = true := by
    rcases hw.2 with e | e <;> simp [e]
  have hcall : (ElD.step k c s.el (.call true)).isSome = true → CanMove (step k c) Ok (Served 0) s := by
    intro hs
    cases hin : s.inCall with
    | true =>
      refine ⟨.leave true, .inr (.inl rfl), trivial, ?_⟩
      simp only [step, hw.1, hin, hctl, Bool.true_and]
      simpa using hs
    | false =>
      refine ⟨.enter, .inl rfl, trivial, ?_⟩
      have : atCall s.el.del = true := by
        simp only [ElD.step] at hs
        split at hs
        · rename_i hd; rw [hd]; rfl
        · cases hs
      simp only [step, hw.1, hin, this]
      rfl
  cases hin : s.inCall with
  | true =>
    obtain ⟨m, t, rest, hd⟩ := C86_in_a_delivery hk h hin
    obtain ⟨nx, av, hcp⟩ := hi.hd.mp (by rw [hd]; rfl)
    apply hcall
    rcases h1 with rfl | rfl | rfl | rfl | rfl
    · exact h3
    · simp [ElD.step, ElD.mayPublish, EvLoop.step, EvLoop.lift, MRing.step, hcp] at h3
    · simp [ElD.step, ElD.mayPublish, EvLoop.step, EvLoop.lift, MRing.step, hcp] at h3
    · simp [ElD.step, EvLoop.step, hcp] at h3
    · simp [ElD.step, hd] at h3
  | false =>
    have inner : ∀ {b}, b = EvLoop.Act.look ∨ b = .scan ∨ b = .advance ∨ b = .finish → a = .loop b → CanMove (step k c) Ok (Served 0) s := by
      rintro b hb rfl
      refine ⟨.el (.loop b), .inr (.inr ⟨b, rfl, hb⟩), h2, ?_⟩
      have hf : free (.loop b : ElD.Act D Nat) = true := by rcases hb with rfl | rfl | rfl | rfl <;> rfl
      simp only [step, hw.1, hf]
      simpa using h3
    rcases h1 with rfl | h1 | h1 | h1 | h1
    · exact hcall h3
    · exact inner (.inl rfl) h1
    · exact inner (.inr (.inl rfl)) h1
    · exact inner (.inr (.inr (.inl rfl))) h1
    · exact inner (.inr (.inr (.inr rfl))) h1

/-- **C90**: the thread of a task or of a user inside `publish` can go on. -/
theorem C90_publisher (hk : k ≤ 30) {s : St D κ} (h : Reach k c kind s) (ht : s.sch.terminated = false) {p : Nat} (hp : s.el.loop.pc p ≠ .idle)
    (hb : s.el.loop.ring.cursor + 1 < 2 ^ 31) : CanMove (step k c) Ok (Served (p + 1)) s := by
  obtain ⟨x, ⟨a, rfl, h1⟩, h2, h3⟩ := ElD.C90_publisher hk h.el hp hb
  refine ⟨.el (.loop a), ⟨a, rfl, h1⟩, h2, ?_⟩
  have hf : free (.loop a : ElD.Act D Nat) = true := by rcases h1 with rfl | rfl | rfl <;> rfl
  simp only [step, ht, hf]
  simpa using h3

/-- **C90**: the thread of a scheduled task can go on, from its start to its end, as long as the program is not terminated: it tests, it wakes up and publishes, it goes on in `publish`, or
it comes back. -/
theorem C90_task_thread (hk : k ≤ 30) {s : St D κ} (h : Reach k c kind s) (ht : s.sch.terminated = false) {id : Nat} {t : Sched.Task} (hid : s.sch.tasks id = some t)
    (hd : t.pc ≠ .done) (hb : s.el.loop.ring.cursor + 1 < 2 ^ 31) : CanMove (step k c) Ok (OfThread id) s := by
  have hi := h.inv hk
  by_cases hpub : s.el.loop.pc (thr id) = .idle
  · match hp : t.pc with
    | .done => exact absurd hp hd
    | .test => exact ⟨.test id, rfl, trivial, by simp [step, lift, Sched.step, ht, hid, hp]⟩
    | .inTask =>
      refine ⟨.finish id, rfl, trivial, ?_⟩
      simp [step, lift, Sched.step, returned, ht, hid, hp, hpub]
    | .sleeping =>
      refine ⟨.wake id, rfl, trivial, ?_⟩
      obtain ⟨n, hn⟩ := Option.isSome_iff_exists.mp (h.hasSched (id := id) (by rw [hid]; simp))
      obtain ⟨l, hl⟩ : ∃ l, ElD.step k c s.el (.loop (.call (thr id) n (.fn id))) = some l := by
        have hring : s.el.loop.ring.pp (thr id) = .idle := by
          obtain ⟨x, ls, _, hi⟩ := ElD.Reach.inv hk (ElD.Reach.mono (fun _ _ h => h.1) h.el)
          have := hi.loop.pcInv (thr id)
          rw [hpub] at this
          exact this
        simp [ElD.step, ElD.mayPublish, hn, EvLoop.step, hpub, MRing.step, hring]
      simp [step, Sched.step, ht, hid, hp, hn, hl]
  · obtain ⟨x, ⟨a, rfl, h1⟩, h2, h3⟩ := C90_publisher hk h ht hpub hb
    refine ⟨.el (.loop a), ?_, h2, h3⟩
    rcases h1 with rfl | rfl | rfl <;> rfl

theorem served_el {s s' : St D κ} {x : Act D κ} {t : Nat} (hx : Served t x) (hs : step k c s x = some s') :
    s'.sch = s.sch ∧ s'.byLoop = s.byLoop ∧ (s'.el = s.el ∨ ∃ a, ElD.Served t a ∧ ElD.step k c s.el a = some s'.el) := by
  unfold step at hs
  split at hs
  · cases hs
  cases t with
  | zero =>
    rcases hx with rfl | rfl | ⟨a, rfl, ha⟩
    · simp only at hs
      split at hs <;> cases hs
      exact ⟨rfl, rfl, .inl rfl⟩
    · simp only at hs
      split at hs
      · obtain ⟨l, hl, rfl⟩ := Option.map_eq_some_iff.mp hs
        exact ⟨rfl, rfl, .inr ⟨_, .inl rfl, hl⟩⟩
      · cases hs
    · simp only at hs
      split at hs
      · obtain ⟨l, hl, rfl⟩ := Option.map_eq_some_iff.mp hs
        refine ⟨rfl, rfl, .inr ⟨_, ?_, hl⟩⟩
        rcases ha with rfl | rfl | rfl | rfl
        · exact .inr (.inl rfl)
        · exact .inr (.inr (.inl rfl))
        · exact .inr (.inr (.inr (.inl rfl)))
        · exact .inr (.inr (.inr (.inr rfl)))
      · cases hs
  | succ p =>
    obtain ⟨a, rfl, ha⟩ := hx
    simp only at hs
    split at hs
    · obtain ⟨l, hl, rfl⟩ := Option.map_eq_some_iff.mp hs
      exact ⟨rfl, rfl, .inr ⟨_, ⟨a, rfl, ha⟩, hl⟩⟩
    · cases hs

/-- **C90**: from every reachable state in which the loop does not wait in `stopScheduledTask` there is an execution in which the loop, if it runs, is served for ever, everybody in `publish`
is served, and nothing that is called throws: the assumptions of C86 about infinite executions can be met. -/
theorem C90_fair_execution (hk : k ≤ 30) {s : St D κ} (h : Reach k c kind s) (hw : NotWaiting s) (hb : EvLoop.Below s.el.loop) :
    ∃ (σ : Nat → St D κ) (α : Nat → Option (Act D κ)), σ 0 = s ∧ Run k c kind σ α ∧ (∀ p, PubFair σ α p) ∧ (s.el.loop.ring.cp 0 ≠ .idle → LoopAlive σ α 0) := by
  obtain ⟨σ, α, h1, h2, h3, h4, h5⟩ := exists_fair (step := step k c) (R := fun s : St D κ => Reach k c kind s ∧ NotWaiting s ∧ EvLoop.Below s.el.loop) (ok := Ok)
    (busy := fun t s => match t with
      | 0 => s.el.loop.ring.cp 0 ≠ .idle
      | p + 1 => s.el.loop.pc p ≠ .idle) (own := Served)
    (fun s a s' h ho hok hs => by
      obtain ⟨t, ho⟩ := ho
      obtain ⟨e1, e2, e3⟩ := served_el ho hs
      refine ⟨h.1.step hok hs, ⟨by rw [e1]; exact h.2.1.1, by rw [e1, e2]; exact h.2.1.2⟩, ?_⟩
      rcases e3 with e3 | ⟨a, e3, e4⟩
      · rw [e3]; exact h.2.2
      · obtain ⟨x, ls, _, hi⟩ := ElD.Reach.inv hk (ElD.Reach.mono (fun _ _ h => h.1) h.1.el)
        exact ElD.below_step hk hi.loop h.2.2 e3 e4)
    (fun t s h hb => match t with
      | 0 => C90_loop hk h.1 h.2.1 hb
      | p + 1 => C90_publisher hk h.1 h.2.1.1 hb (by obtain ⟨L, _, hl⟩ := h.2.2; omega)) s ⟨h, hw, hb⟩
  have hno : ∀ {j a}, α j = some a → (∀ t, ¬ Served t a) → False := fun e h => by
    obtain ⟨_, t, ho⟩ := h4 _ _ e
    exact h t ho
  refine ⟨σ, α, h1, ⟨hk, h1 ▸ h, h2, fun i a e => (h4 i a e).1⟩, fun p => ⟨h5 (p + 1), 0, ?_⟩, fun hc => ⟨by rw [h1]; exact hc, ?_, ?_⟩⟩
  · intro j _ e
    exact hno e fun t ho => by
      cases t with
      | zero => rcases ho with ho | ho | ⟨a, e, ho | ho | ho | ho⟩ <;> cases ho <;> cases e
      | succ t => obtain ⟨a, e, ho | ho | ho⟩ := ho <;> cases ho <;> cases e
  · intro j _ e
    exact hno e fun t ho => by
      cases t with
      | zero => rcases ho with ho | ho | ⟨a, e, ho | ho | ho | ho⟩ <;> cases ho <;> cases e
      | succ t => obtain ⟨a, e, ho | ho | ho⟩ := ho <;> cases ho <;> cases e
  · intro i hb
    obtain ⟨j, hj, a, ha, ho⟩ := h5 0 i hb
    refine ⟨j, hj, a, ha, ?_⟩
    rcases ho with rfl | rfl | ⟨a, rfl, rfl | rfl | rfl | rfl⟩
    · trivial
    · trivial
    · exact .inl rfl
    · exact .inr (.inl rfl)
    · exact .inr (.inr (.inl rfl))
    · exact .inr (.inr (.inr (.inl rfl)))

end Verif.ElS
