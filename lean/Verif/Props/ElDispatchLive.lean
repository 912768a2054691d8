import Verif.Spec.ElDispatchLive
import Verif.Props.ElDispatch
import Verif.Props.LoopLive
import Verif.Lemmas.Fair

/-! C79, progress: every event accepted by a running event loop reaches the listeners registered on its topic. -/

namespace Verif.EvLoop
open Verif Verif.Disr Verif.Fair

variable {D : Type} {k : Nat} {σ : Nat → St D} {α : Nat → Option (Act D)}

/-- Everything accepted up to time `i` is taken up in the end, and the loop is between two events then. -/
theorem all_taken_up (h : Run k σ α) (hd : ∀ j, Reach k DrainedStart (σ j)) (hf : ∀ p, PubFair σ α p) {i : Nat} (ha : LoopAlive σ α i) :
    ∃ j nx, i ≤ j ∧ (acceptedInOrder (σ i)).length ≤ (allEmitted (σ j)).length ∧ (σ j).ring.cp 0 = .wait nx := by
  have hb := (h.lInv i).chain.bound
  have hlen : ((acceptedInOrder (σ i)).length : Int) = (σ i).ring.cursor + 1 := by simpa [acceptedInOrder] using hb.2.1
  obtain ⟨j, j1, j2⟩ := all_published h hf (i := i) ((σ i).ring.cursor + 1).toNat (by omega)
  obtain ⟨l, l1, l2⟩ := LoopAlive.reaches h (x := (σ i).ring.cursor) _ (ha.from h j1).1 (h.cursor_mono j1)
    (fun y h0 h1 => j2 y h0 (by omega)) (Nat.le_refl _)
  have hal := (ha.from h (Nat.le_trans j1 l1)).1
  obtain ⟨m, nx, m1, m2⟩ := hal.to_wait h
  have hs := hal.seq_mono h m1
  refine ⟨m, nx, by omega, ?_, m2⟩
  obtain ⟨b1, _, _⟩ := drained_before h.hk (hd m)
  obtain ⟨_, _, g3, _⟩ := session h.hk (hd m)
  simp only [allEmitted, List.length_reverse, List.length_append]
  omega

end Verif.EvLoop

namespace Verif.ElD
open Verif Verif.Fair

variable {D F : Type} [DecidableEq D] [DecidableEq F] {k : Nat} {c : Bool} {kind : Kind} {σ : Nat → St D F} {α : Nat → Option (Act D F)}

omit [DecidableEq D] [DecidableEq F] in
theorem Run.next (h : Run k c kind σ α) (i : Nat) : (α i = none ∧ σ (i + 1) = σ i) ∨ ∃ a, α i = some a ∧ step k c (σ i) a = some (σ (i + 1)) := by
  have := h.exec i
  cases ha : α i with
  | none => rw [ha] at this; exact Or.inl ⟨rfl, this⟩
  | some a => rw [ha] at this; exact Or.inr ⟨a, rfl, this⟩

omit [DecidableEq D] [DecidableEq F] in
theorem Run.reach (h : Run k c kind σ α) (i : Nat) : Reach k c kind OkDrained (σ i) := by
  induction i with
  | zero => exact h.start
  | succ i ih =>
    rcases h.next i with ⟨_, e⟩ | ⟨a, ha, e⟩
    · rw [e]; exact ih
    · exact .step ih (h.ok i a ha) e

omit [DecidableEq D] [DecidableEq F] in
theorem Run.drained (h : Run k c kind σ α) (i : Nat) : EvLoop.Reach k EvLoop.DrainedStart (σ i).loop :=
  (h.reach i).loop (fun _ a h => ⟨h.2 a rfl, h.1.1⟩) (fun _ => nofun)

/-- What the loop sees of a step. -/
def proj : Act D F → Option (EvLoop.Act (Msg D F))
  | .loop a => some a
  | .call false => some .throw
  | _ => none

omit [DecidableEq D] [DecidableEq F] in
/-- Registrations leave the loop and the delivery under way alone. -/
theorem step_same {s s' : St D F} {a : Act D F} (h1 : ∀ b, a ≠ .loop b) (h2 : ∀ b, a ≠ .call b) (hs : step k c s a = some s') :
    s'.loop = s.loop ∧ s'.del = s.del := by
  have hw : ∀ {i : Nat} {f : Sub → Option (St D F)}, (∀ o s', f o = some s' → s'.loop = s.loop ∧ s'.del = s.del) → withSub s i f = some s' →
      s'.loop = s.loop ∧ s'.del = s.del := by
    intro i f hf h
    simp only [withSub] at h
    split at h
    · split at h
      · cases h; exact ⟨rfl, rfl⟩
      · exact hf _ _ h
    · cases h; exact ⟨rfl, rfl⟩
    · cases h
  match a, hs with
  | .loop b, _ => exact absurd rfl (h1 b)
  | .call b, _ => exact absurd rfl (h2 b)
  | .getPublisher n, hs => simp only [step] at hs; split at hs <;> cases hs <;> exact ⟨rfl, rfl⟩
  | .getSubscriber n kd, hs =>
    simp only [step] at hs
    (repeat' split at hs) <;> first | (cases hs; done) | (cases hs; exact ⟨rfl, rfl⟩)
  | .getScheduler n, hs =>
    simp only [step] at hs
    split at hs
    · cases hs; exact ⟨rfl, rfl⟩
    · split at hs
      · cases hs
        simp only [makeScheduler]
        split
        · simp only [destroy]
          split <;> exact ⟨rfl, rfl⟩
        · exact ⟨rfl, rfl⟩
      · cases hs
  | .reg i l, hs | .once i, hs | .rem i l, hs =>
    refine hw (fun o s' h => ?_) hs
    (repeat' split at h) <;> first | (cases h; done) | (cases h; exact ⟨rfl, rfl⟩)

/-- The call of a listener that returns. -/
theorem step_call (hk : k ≤ 30) {s s' : St D F} (h : Reach k c kind OkDrained s) (hs : step k c s (.call true) = some s') :
    s'.loop = s.loop ∧ ∃ m t todo, s.del = some ⟨m, t :: todo⟩ ∧ s'.del = some ⟨m, todo⟩ := by
  obtain ⟨a, ls, _, hi⟩ := (h.mono fun _ _ h => h.1).inv hk
  simp only [step] at hs
  split at hs
  · rename_i m i hd' rest hd
    rw [if_neg (by rw [hi.regs.dead]; simp), if_neg (by simp)] at hs
    have hcur := hi.cur
    rw [hd] at hcur
    match hc : a.cur with
    | none => rw [hc] at hcur; exact hcur.elim
    | some (n, m', ents) =>
      rw [hc] at hcur
      obtain ⟨_, _, h3⟩ := hcur
      cases h3 with
      | cons hte _ =>
        cases ho : hd'.once with
        | false =>
          rw [ho] at hs
          split at hs
          · rename_i heq; cases heq
          · cases hs; exact ⟨rfl, _, _, _, hd, rfl⟩
        | true =>
          obtain ⟨⟨o, o1, o2⟩, x, x1, x2, x3, x4⟩ := hte.2.2.2 ho
          obtain ⟨em, he, _⟩ := (hi.regs.obj i _ o1).2.1.remove c x1
          rw [x2] at he
          simp only at o1 he
          simp only [o1, he, ho] at hs
          cases hs
          exact ⟨rfl, _, _, _, hd, rfl⟩
  · cases hs

theorem step_proj (hk : k ≤ 30) {s s' : St D F} (h : Reach k c kind OkDrained s) {a : Act D F} (hs : step k c s a = some s') :
    match proj a with
    | none => s'.loop = s.loop
    | some b => EvLoop.step k s.loop b = some s'.loop := by
  match a, hs with
  | .call true, hs => exact (step_call hk h hs).1
  | .call false, hs =>
    obtain ⟨a, ls, _, hi⟩ := (h.mono fun _ _ h => h.1).inv hk
    simp only [step] at hs
    split at hs
    · rw [if_neg (by rw [hi.regs.dead]; simp), if_pos trivial] at hs
      simp only [thrown, Option.map_eq_some_iff] at hs
      obtain ⟨l, hl, rfl⟩ := hs
      exact hl
    · cases hs
  | .loop b, hs =>
    cases b <;> simp only [step] at hs <;> (repeat' split at hs) <;> first
      | (cases hs; done)
      | (simp only [Option.map_eq_some_iff] at hs; obtain ⟨l, hl, rfl⟩ := hs; exact hl)
      | (cases hs; assumption)
  | .getPublisher n, hs => exact (step_same (fun _ e => by cases e) (fun _ e => by cases e) hs).1
  | .getSubscriber n kd, hs => exact (step_same (fun _ e => by cases e) (fun _ e => by cases e) hs).1
  | .getScheduler n, hs => exact (step_same (fun _ e => by cases e) (fun _ e => by cases e) hs).1
  | .reg i l, hs => exact (step_same (fun _ e => by cases e) (fun _ e => by cases e) hs).1
  | .once i, hs => exact (step_same (fun _ e => by cases e) (fun _ e => by cases e) hs).1
  | .rem i l, hs => exact (step_same (fun _ e => by cases e) (fun _ e => by cases e) hs).1

omit [DecidableEq D] [DecidableEq F] in
/-- The delivery under way, apart from its steps. -/
theorem step_del {s s' : St D F} {a : Act D F} (h1 : a ≠ .loop .advance) (h2 : a ≠ .loop .finish) (h3 : ∀ b, a ≠ .call b) (hs : step k c s a = some s') :
    s'.del = s.del := by
  match a with
  | .loop b =>
    cases b <;> simp only [step] at hs <;> first
      | exact absurd rfl h1
      | exact absurd rfl h2
      | (cases hs; done)
      | (split at hs
         · simp only [Option.map_eq_some_iff] at hs; obtain ⟨l, hl, rfl⟩ := hs; rfl
         · cases hs)
  | .call b => exact absurd rfl (h3 b)
  | .getPublisher n | .getSubscriber n kd | .getScheduler n | .reg i l | .once i | .rem i l => exact (step_same (fun _ e => by cases e) (fun _ e => by cases e) hs).2

/-- The execution of the loop inside. -/
theorem Run.proj (h : Run k c kind σ α) : EvLoop.Run k (fun j => (σ j).loop) (fun j => (α j).bind proj) where
  hk := h.hk
  start := (h.reach 0).loop (fun _ _ h => ⟨trivial, h.1.1⟩) (fun _ => trivial)
  exec := by
    intro j
    rcases h.next j with ⟨h1, h2⟩ | ⟨a, h1, h2⟩
    · simp only [h1, Option.bind_none]; rw [h2]
    · have := step_proj h.hk (h.reach j) h2
      simp only [h1, Option.bind_some]
      cases hp : ElD.proj a with
      | none => rw [hp] at this; exact this
      | some b => rw [hp] at this; exact this
  ok := by
    intro j b hb
    obtain ⟨a, h1, h2⟩ := Option.bind_eq_some_iff.mp hb
    match a, h2 with
    | .loop b', h2 => cases h2; exact (h.ok j _ h1).1.1
    | .call false, h2 => cases h2; trivial
    | .call true, h2 => cases h2

omit [DecidableEq D] [DecidableEq F] in
theorem proj_loop {j : Nat} {b : EvLoop.Act (Msg D F)} (hb : b ≠ .throw) : (α j).bind ElD.proj = some b ↔ α j = some (.loop b) := by
  constructor
  · intro e
    obtain ⟨a, h1, h2⟩ := Option.bind_eq_some_iff.mp e
    match a, h2 with
    | .loop b', h2 => cases h2; exact h1
    | .call false, h2 => cases h2; exact absurd rfl hb
    | .call true, h2 => cases h2
  · intro e; rw [e]; rfl

omit [DecidableEq D] [DecidableEq F] in
theorem PubFair.proj {p : Nat} (hf : PubFair σ α p) : EvLoop.PubFair (fun j => (σ j).loop) (fun j => (α j).bind proj) p where
  turn := by
    intro i hb
    obtain ⟨j, hj, a, h1, b, rfl, h2⟩ := hf.turn i hb
    exact ⟨j, hj, b, by simp only [h1]; rfl, h2⟩
  weak := by
    obtain ⟨n0, hw⟩ := hf.weak
    exact ⟨n0, fun n hn e => hw n hn ((proj_loop (b := .weak p) (fun e => by cases e)).mp e)⟩

theorem LoopAlive.proj (h : Run k c kind σ α) {i : Nat} (ha : LoopAlive σ α i) : EvLoop.LoopAlive (fun j => (σ j).loop) (fun j => (α j).bind proj) i where
  running := ha.running
  stays := fun j hj e => ha.stays j hj ((proj_loop (b := .stop) (fun e => by cases e)).mp e)
  fair := by
    intro l hb
    have hturn := fun j (hj : l ≤ j) => ha.fair j fun j' hj' => hb j' (Nat.le_trans hj hj')
    apply Classical.byContradiction
    intro hno
    have hno : ∀ j, l ≤ j → ∀ a, α j = some a → ∀ b, ElD.proj a = some b → ¬ EvLoop.LoopTurn b := fun j hj a h1 b h2 h3 =>
      hno ⟨j, hj, b, by simp only [h1, Option.bind_some]; exact h2, h3⟩
    obtain ⟨_, _, hf⟩ := Fair.eventually (σ := σ) (α := α) LoopTurn (fun _ => False) (fun s => (s.del.map (·.todo.length)).getD 0) l hturn (by
      intro j hj _
      rcases h.next j with ⟨hnone, e⟩ | ⟨a, h1, e⟩
      · rw [e]; exact ⟨Nat.le_refl _, fun a ha => by rw [hnone] at ha; cases ha⟩
      · have key : ((σ (j + 1)).del.map (·.todo.length)).getD 0 ≤ ((σ j).del.map (·.todo.length)).getD 0 ∧
            (LoopTurn a → ((σ (j + 1)).del.map (·.todo.length)).getD 0 < ((σ j).del.map (·.todo.length)).getD 0) := by
          have hn := hno j hj a h1
          match a, h1 with
          | .call true, h1 =>
            obtain ⟨_, m, t, todo, d1, d2⟩ := step_call h.hk (h.reach j) e
            rw [d1, d2]
            simp
          | .call false, h1 => exact absurd (by simp [EvLoop.LoopTurn]) (hn _ rfl)
          | .loop b, h1 =>
            have hn := hn _ rfl
            rw [step_del (fun e => hn (by cases e; simp [EvLoop.LoopTurn])) (fun e => hn (by cases e; simp [EvLoop.LoopTurn])) (fun _ e => by cases e) e]
            exact ⟨Nat.le_refl _, fun ht => absurd ht hn⟩
          | .getPublisher _, _ | .getSubscriber _ _, _ | .getScheduler _, _ | .reg _ _, _ | .once _, _ | .rem _ _, _ =>
            rw [step_del (fun e => by cases e) (fun e => by cases e) (fun _ e => by cases e) e]
            exact ⟨Nat.le_refl _, fun ht => absurd ht id⟩
        exact ⟨key.1, fun a' ha' ht => by rw [h1] at ha'; cases ha'; exact key.2 ht⟩)
    exact hf

omit [DecidableEq D] [DecidableEq F] in
theorem step_accepted {s s' : St D F} {a : Act D F} (hr : EvLoop.Reach k (fun _ _ => True) s.loop) (hs : step k c s a = some s') :
    EvLoop.acceptedInOrder s.loop <+: EvLoop.acceptedInOrder s'.loop := by
  have key : ∀ b, EvLoop.step k s.loop b = some s'.loop → EvLoop.acceptedInOrder s.loop <+: EvLoop.acceptedInOrder s'.loop := by
    intro b hb
    cases EvLoop.step_eff hr.pcInv hb with
    | got p t d h1 h2 h' => rw [h']; simp only [EvLoop.acceptedInOrder, List.reverse_cons]; exact List.prefix_append _ _
    | call | refused | more | weak | write | publish | start | run | lookNone | look | scan | event | batchEnd | finish | throw | stop =>
      rename s'.loop = _ => h'; rw [h']; try exact List.prefix_refl _
  rcases step_loop hs with ⟨h, _⟩ | ⟨b, _, _, h, _⟩ | ⟨h, _⟩ | ⟨_, h, _⟩
  · rw [h]
  · exact key _ h
  · exact key _ h
  · exact key _ h

omit [DecidableEq D] [DecidableEq F] in
theorem Run.accepted_prefix (h : Run k c kind σ α) {i j : Nat} (hij : i ≤ j) : EvLoop.acceptedInOrder (σ i).loop <+: EvLoop.acceptedInOrder (σ j).loop := by
  induction hij with
  | refl => exact List.prefix_refl _
  | step _ ih =>
    rename_i m _
    refine ih.trans ?_
    show _ <+: EvLoop.acceptedInOrder (σ (m + 1)).loop
    rcases h.next m with ⟨_, e⟩ | ⟨a, _, e⟩
    · rw [e]
    · exact step_accepted ((h.reach m).loop (fun _ _ h => ⟨trivial, h.1.1⟩) (fun _ => trivial)) e

/-- **C79**, progress: the loop runs at time `i` and is not stopped, and the scheduler forgets neither its thread nor a publisher in the middle of `publish`.  Then
every event accepted up to time `i` is taken up, and the loop is between two deliveries at some later time.  Listeners may throw. -/
theorem C79_all_taken_up (h : Run k c kind σ α) (hf : ∀ p, PubFair σ α p) {i : Nat} (ha : LoopAlive σ α i) :
    ∃ j, i ≤ j ∧ (σ j).del = none ∧ (starts (σ j).hist).take (EvLoop.acceptedInOrder (σ i).loop).length =
      (EvLoop.acceptedInOrder (σ i).loop).map (fun a => (a.2.1, some a.2.2.1)) := by
  obtain ⟨j, nx, j1, j2, j3⟩ := EvLoop.all_taken_up h.proj h.drained (fun p => (hf p).proj) (ha.proj h)
  obtain ⟨a, ls, _, hi⟩ := ((h.reach j).mono fun _ _ h => h.1).inv h.hk
  refine ⟨j, j1, ?_, ?_⟩
  · cases hd : (σ j).del with
    | none => rfl
    | some d =>
      obtain ⟨x, y, e⟩ := hi.hd.mp (by rw [hd]; rfl)
      rw [j3] at e; cases e
  · obtain ⟨e1, e2⟩ := C79_taken_up_in_order h.hk (h.reach j)
    have hst := (h.reach j).starts h.hk (fun _ _ h => h.1.1)
    have hl : (starts (σ j).hist).length = (EvLoop.allEmitted (σ j).loop).length := by rw [hst, List.length_map]
    obtain ⟨L, hL⟩ := h.accepted_prefix j1
    rw [e1, hl, ← hL, ← List.map_take, List.take_take, Nat.min_eq_left j2, List.take_left']
    rfl

/-- **C79**, progress: a listener that stays registered, with listeners that return, is called in the end with every event of its topic accepted up to time `i` that the
loop had not taken up before the registration, each once, in the order of acceptance, with the data it was published with. -/
theorem C79_delivered (h : Run k c kind σ α) (hf : ∀ p, PubFair σ α p) {i : Nat} (ha : LoopAlive σ α i) {h1 : List (Ev (Msg D F))} {n l : String}
    (hreg : ∀ j, i ≤ j → ∃ h2, (σ j).hist = h1 ++ .reg n l :: h2 ∧ NoThrow h2 ∧ .rem n l ∉ h2) :
    ∃ j, i ≤ j ∧ (((EvLoop.acceptedInOrder (σ i).loop).drop (starts h1).length).filter fun a => decide (a.2.1 = n)).map (fun a => a.2.2.1) <+:
      callsOf (regs h1) (σ j).hist := by
  obtain ⟨j, j1, j2, j3⟩ := C79_all_taken_up h hf ha
  refine ⟨j, j1, ?_⟩
  obtain ⟨h2, e1, e2, e3⟩ := hreg j j1
  obtain ⟨r, f1, _, f3⟩ := C79_end_to_end h.hk (h.reach j) e1 e2 e3
  rw [f3 j2, List.append_nil] at f1
  rw [f1]
  have hle : (EvLoop.acceptedInOrder (σ i).loop).length ≤ (starts (σ j).hist).length := by
    have := congrArg List.length j3
    simp only [List.length_take, List.length_map] at this
    omega
  obtain ⟨L, hL⟩ := h.accepted_prefix j1
  refine List.IsPrefix.map _ (List.IsPrefix.filter _ (List.IsPrefix.drop ?_ _))
  rw [← hL, List.take_append, List.take_of_length_le hle]
  exact List.prefix_append _ _

/-! ### A concrete execution: subscriber, listener, publisher, one event from thread 1, its delivery; then the loop looks for events for ever. -/

def lvActs : List (Act Nat Nat) := [.getSubscriber "a" .safe, .getPublisher "a", .reg 0 "l"] ++ pub 0 1 "a" (.ev 10) ++ deliver 1

/-- What is done at time `i`. -/
def lvAct (i : Nat) : Act Nat Nat := lvActs.getD i (.loop .look)

def lv : Nat → St Nat Nat
  | 0 => started .safe
  | i + 1 => (step 1 false (lv i) (lvAct i)).getD (lv i)

theorem lv_len : lvActs.length = 16 := by decide

theorem lv_late {i : Nat} (h : 16 ≤ i) : lvAct i = .loop .look := by
  unfold lvAct
  rw [List.getD_eq_getElem?_getD, List.getElem?_eq_none (by rw [lv_len]; exact h)]
  rfl

theorem lv_end : (lv 16).loop.ring.cp 0 = .wait 1 ∧ (lv 16).loop.ring.cursor = 0 := by decide +kernel

omit [DecidableEq D] [DecidableEq F] in
theorem look_same {s : St D F} (h : EvLoop.step k s.loop .look = some s.loop) : step k c s (.loop .look) = some s := by
  simp [step, mayPublish, h]

theorem lv_look : step 1 false (lv 16) (.loop .look) = some (lv 16) :=
  look_same (by simp [EvLoop.step, EvLoop.lift, MRing.step, lv_end.1, lv_end.2])

theorem lv_tail (d : Nat) : lv (16 + d) = lv 16 := by
  induction d with
  | zero => rfl
  | succ d ih =>
    show (step 1 false (lv (16 + d)) (lvAct (16 + d))).getD (lv (16 + d)) = _
    rw [lv_late (by omega), ih, lv_look, Option.getD_some]

theorem lv_run : Run 1 false .safe lv (fun i => some (lvAct i)) where
  hk := by decide
  start := reach_started .safe
  exec := by
    have : ∀ i, (step 1 false (lv i) (lvAct i)).isSome = true := EvLoop.cases_at 16 (by decide +kernel) (fun d => by
      rw [lv_tail, lv_late (by omega), lv_look]; rfl)
    intro i
    show step 1 false _ _ = some ((step 1 false _ _).getD _)
    have := this i
    cases e : step 1 false (lv i) (lvAct i) with
    | none => rw [e] at this; cases this
    | some t => rfl
  ok := by
    have : ∀ i, okC (lv i) (lvAct i) = true := EvLoop.cases_at 16 (by decide +kernel) (fun d => by
      rw [lv_tail, lv_late (by omega)]; rfl)
    intro i a ha
    cases ha
    exact okC_ok (this i)

theorem lv_alive : LoopAlive lv (fun i => some (lvAct i)) 0 := by
  refine ⟨by decide +kernel, ?_, ?_⟩
  · have : ∀ i, (match lvAct i with | .loop .stop => false | _ => true) = true := EvLoop.cases_at 16 (by decide +kernel) (fun d => by
      rw [lv_late (by omega)])
    intro j _ e
    have h := this j
    rw [Option.some.inj e] at h
    cases h
  · intro i _
    exact ⟨16 + i, by omega, .loop .look, by show some (lvAct (16 + i)) = _; rw [lv_late (by omega)], Or.inl rfl⟩

theorem lv_fair (p : Nat) : PubFair lv (fun i => some (lvAct i)) p := by
  refine ⟨?_, 16, fun n hn e => by rw [lv_late hn] at e; cases e⟩
  intro i hb
  exfalso
  have h16 : ∀ p, (lv 16).loop.pc p = .idle := by
    intro p
    by_cases hp : p = 1
    · subst hp; decide +kernel
    · have : (lv 16).loop.pc = upd (upd (upd (upd (fun _ => .idle) 1 (.claiming "a" (.ev 10))) 1 (.claimed "a" (.ev 10) 0)) 1 (.written "a" (.ev 10) 0)) 1 .idle := by rfl
      rw [this, upd_other _ _ hp, upd_other _ _ hp, upd_other _ _ hp, upd_other _ _ hp]
  exact hb (16 + i) (by omega) (by rw [lv_tail]; exact h16 p)

/-- No listener throws, as a test. -/
def calmB (h : List (Ev (Msg Nat Nat))) : Bool := h.all fun | .call _ _ false => false | _ => true

theorem lv_reg : ∀ j, 3 ≤ j → ∃ h2, (lv j).hist = [] ++ .reg "a" "l" :: h2 ∧ NoThrow h2 ∧ .rem "a" "l" ∉ h2 := by
  have key : ∀ h : List (Ev (Msg Nat Nat)), h.take 1 = [.reg "a" "l"] ∧ calmB h = true ∧ .rem "a" "l" ∉ h →
      ∃ h2, h = [] ++ .reg "a" "l" :: h2 ∧ NoThrow h2 ∧ .rem "a" "l" ∉ h2 := by
    intro h ⟨h1, h2, h3⟩
    match h, h1 with
    | e :: h', h1 =>
      simp only [List.take_succ_cons, List.take_zero, List.cons.injEq, and_true] at h1
      subst h1
      refine ⟨h', rfl, ?_, fun hm => h3 (List.mem_cons_of_mem _ hm)⟩
      intro no m hm
      have := List.all_eq_true.mp h2 _ (List.mem_cons_of_mem _ hm)
      cases this
  refine EvLoop.cases_at 16 ?_ ?_
  · have : ∀ j < 16, j < 3 ∨ ((lv j).hist.take 1 = [.reg "a" "l"] ∧ calmB (lv j).hist = true ∧ .rem "a" "l" ∉ (lv j).hist) := by decide +kernel
    intro j hj h3
    exact key _ ((this j hj).resolve_left (by omega))
  · intro d _
    rw [lv_tail]
    exact key _ (by decide +kernel)

/-- **C79**: the hypotheses of `C79_delivered` are met at time 9 of this execution, when an event has been accepted and the listener has not been called; it is called later. -/
theorem C79_live_example : Run 1 false .safe lv (fun i => some (lvAct i)) ∧ (∀ p, PubFair lv (fun i => some (lvAct i)) p) ∧ LoopAlive lv (fun i => some (lvAct i)) 0 ∧
    (∀ j, 3 ≤ j → ∃ h2, (lv j).hist = [] ++ .reg "a" "l" :: h2 ∧ NoThrow h2 ∧ .rem "a" "l" ∉ h2) ∧
    EvLoop.acceptedInOrder (lv 9).loop = [(1, "a", .ev 10, 0)] ∧ callsOf 0 (lv 9).hist = [] ∧ callsOf 0 (lv 16).hist = [.ev 10] :=
  ⟨lv_run, lv_fair, lv_alive, lv_reg, by decide +kernel, by decide +kernel, by decide +kernel⟩

end Verif.ElD
