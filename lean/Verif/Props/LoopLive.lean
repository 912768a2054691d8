import Verif.Lemmas.LoopLive

/-!
C72: under every fair schedule, `publish` returns, and every event accepted by a running event loop reaches its listeners in the end.

These are statements about infinite executions (Spec/Fair.lean, Spec/LoopLive.lean) of the event loop of Model/EventLoop.lean: any
number of publishing threads, a loop thread, calls of start and stop.
-/

namespace Verif.EvLoop
open Verif Verif.Disr Verif.Fair

variable {D : Type} {k : Nat} {σ : Nat → St D} {α : Nat → Option (Act D)}

/-- **C72**.  Every call of `publish` returns: after every time `i` thread `p` is outside of `publish` again, if the scheduler does not forget its thread: it never waits for the loop or for another
publisher.  (`PubFair` includes that `compare_exchange_weak` fails spuriously only finitely often.)  Whether the loop runs does not matter. -/
theorem C72_publish_returns (h : Run k σ α) {p : Nat} (hf : PubFair σ α p) (i : Nat) : ∃ j, i < j ∧ (σ j).pc p = .idle := by
  obtain ⟨n0, hw⟩ := hf.weak
  obtain ⟨j, j1, j2⟩ := returns h hf hw (i := max (i + 1) n0) (by omega)
  exact ⟨j, by omega, j2⟩

/-- **C72**.  The loop runs at time `i` and is not stopped, and the scheduler forgets neither its thread nor a publisher in the middle
of `publish`.  Then every event accepted so far since the loop was started (that is, with a sequence beyond `base`) is passed to the
listeners, with its topic and its data, in the end.  Listeners may throw. -/
theorem C72_accepted_is_delivered (h : Run k σ α) (hf : ∀ p, PubFair σ α p) {i : Nat} (ha : LoopAlive σ α i) {a : Nat × String × D × Int}
    (hm : a ∈ (σ i).accepted) (hb : (σ i).ring.base 0 < a.2.2.2) : ∃ j, i ≤ j ∧ toEmission a ∈ (σ j).emitted := by
  have hbd := (h.lInv i).chain.bound
  obtain ⟨b1, b2⟩ := hbd.2.2 a hm
  obtain ⟨j, j1, j2⟩ := all_published h hf (i := i) (a.2.2.2 + 1).toNat (by omega)
  obtain ⟨l, l1, l2⟩ := LoopAlive.reaches h (x := a.2.2.2) _ (ha.from h j1).1 (Int.le_trans b2 (h.cursor_mono j1))
    (fun y h0 h1 => j2 y h0 (by omega)) (Nat.le_refl _)
  obtain ⟨hal, hbase⟩ := ha.from h (Nat.le_trans j1 l1)
  have hg := hal.gating h
  obtain ⟨n, n1, n2, n3⟩ := emitted_seq h.hk (h.reach l) hg
  refine ⟨l, by omega, ?_⟩
  have hin : a.2.2.2 ∈ (σ l).emitted.reverse.map (·.seq) := by
    rw [n1]
    refine List.mem_map.mpr ⟨(a.2.2.2 - ((σ l).ring.base 0 + 1)).toNat, ?_, by omega⟩
    rw [List.mem_range]
    omega
  obtain ⟨e, e1, e2⟩ := List.mem_map.mp hin
  rw [List.mem_reverse] at e1
  obtain ⟨p, t, d, g1, g2⟩ := (h.lInv l).em hg e e1
  have hu := (h.lInv l).chain.unique g1 (h.accepted_mono (Nat.le_trans j1 l1) hm) e2
  have : toEmission a = e := by
    rw [← hu, g2]; rfl
  rw [this]; exact e1

/-- **C72**.  The same without sequences: every event accepted at or after a time at which the loop runs is passed to the listeners
in the end. -/
theorem C72_accepted_while_running (h : Run k σ α) (hf : ∀ p, PubFair σ α p) {i j : Nat} (ha : LoopAlive σ α i) (hij : i ≤ j)
    {a : Nat × String × D × Int} (hn : a ∉ (σ i).accepted) (hm : a ∈ (σ j).accepted) : ∃ l, j ≤ l ∧ toEmission a ∈ (σ l).emitted := by
  obtain ⟨haj, hbase⟩ := ha.from h hij
  refine C72_accepted_is_delivered h hf haj hm ?_
  apply Classical.byContradiction
  intro hle
  have hbj := (h.lInv j).chain.bound.2.2 a hm
  have hbs := (h.lInv i).bs (ha.gating h)
  have hcur : (σ i).ring.seq 0 ≤ (σ i).ring.cursor := by
    obtain ⟨n, _, n2, n3⟩ := emitted_seq h.hk (h.reach i) (ha.gating h)
    omega
  obtain ⟨p, t, d, hx⟩ := (h.lInv i).chain.cover (x := a.2.2.2) hbj.1 (by omega)
  have := (h.lInv j).chain.unique (h.accepted_mono hij hx) hm rfl
  exact hn (this ▸ hx)

deriving instance DecidableEq for Pc

/-! A concrete execution on a ring of one slot: the loop is started, thread 3 publishes 7 on "t", the loop delivers it and then looks
for events for ever. -/

/-- The execution that follows `script` and then repeats `cycle`. -/
def act (script cycle : List (Act D)) (i : Nat) : Act D := (script[i]?).getD ((cycle[(i - script.length) % cycle.length]?).getD .look)

def states (k : Nat) (script cycle : List (Act D)) : Nat → St D
  | 0 => St.init
  | i + 1 => (step k (states k script cycle i) (act script cycle i)).getD (states k script cycle i)

theorem states_exec {script cycle : List (Act D)} (h : ∀ i, (step k (states k script cycle i) (act script cycle i)).isSome = true) :
    Exec (step k) (states k script cycle) (fun i => some (act script cycle i)) := by
  intro i
  show step k _ _ = some ((step k _ _).getD _)
  have := h i
  cases e : step k (states k script cycle i) (act script cycle i) with
  | none => rw [e] at this; cases this
  | some t => rfl

/-- `OkAct` as a test, for a script whose only `start` is its first action. -/
def okAt (i : Nat) (s : St D) : Act D → Bool
  | .start => i == 0
  | .claim p => match s.ring.pp p with
    | .tCache _ cur => decide (cur + 1 < 2 ^ 31)
    | _ => true
  | _ => true

theorem okAt_ok {script cycle : List (Act D)} {i : Nat} {a : Act D} (h : okAt i (states k script cycle i) a = true) : OkAct (states k script cycle i) a := by
  cases a with
  | start =>
    simp only [okAt, beq_iff_eq] at h
    subst h
    intro x; rfl
  | claim p =>
    intro cur hc
    simp only [okAt, hc, decide_eq_true_eq] at h
    exact h
  | _ => trivial

theorem states_run {script cycle : List (Act D)} (hk : k ≤ 30)
    (h : ∀ i, (step k (states k script cycle i) (act script cycle i)).isSome = true ∧ okAt i (states k script cycle i) (act script cycle i) = true) :
    Run k (states k script cycle) (fun i => some (act script cycle i)) :=
  ⟨hk, .init, states_exec (fun i => (h i).1), fun i a ha => by
    simp only [Option.some.injEq] at ha
    subst ha
    exact okAt_ok (h i).2⟩

theorem cases_at {P : Nat → Prop} (n : Nat) (h1 : ∀ i < n, P i) (h2 : ∀ d, P (n + d)) : ∀ i, P i := by
  intro i
  by_cases h : i < n
  · exact h1 i h
  · rw [show i = n + (i - n) by omega]; exact h2 _

def exScript : List (Act Nat) := [.start, .run, .call 3 "t" 7, .claim 3, .claim 3, .claim 3, .write 3, .publish 3, .look, .scan, .scan, .advance, .finish, .advance]

/-- The state at time `i` of the execution above. -/
abbrev ex (i : Nat) : St Nat := states 0 exScript [.look] i

theorem ex_late_act {i : Nat} (h : 14 ≤ i) : act exScript [.look] i = .look := by
  unfold act
  rw [List.getElem?_eq_none (by simpa [exScript] using h)]
  simp [Nat.mod_one]

theorem ex_end : (ex 14).ring.cp 0 = .wait 1 ∧ (ex 14).ring.cursor = 0 := by decide +kernel

theorem ex_tail : ∀ d, ex (14 + d) = ex 14 := by
  intro d
  induction d with
  | zero => rfl
  | succ d ih =>
    show (step 0 (ex (14 + d)) (act exScript [.look] (14 + d))).getD (ex (14 + d)) = _
    rw [ex_late_act (by omega), ih]
    simp [step, lift, MRing.step, ex_end.1, ex_end.2]

theorem ex_run : Run 0 ex (fun i => some (act exScript [.look] i)) :=
  states_run (by decide) (cases_at 14 (by decide +kernel) (fun d => by
    show (step 0 (ex (14 + d)) _).isSome = true ∧ okAt _ (ex (14 + d)) _ = true
    rw [ex_tail, ex_late_act (by omega)]
    simp [step, lift, MRing.step, ex_end.1, ex_end.2, okAt]))

theorem ex_alive : LoopAlive ex (fun i => some (act exScript [.look] i)) 2 := by
  refine ⟨by decide +kernel, ?_, ?_⟩
  · refine cases_at 14 ?_ ?_
    · intro j hj _ e
      have : ∀ i < 14, act exScript [.look] i ≠ .stop := by decide +kernel
      exact this j hj (by simpa using e)
    · intro d _ e
      rw [ex_late_act (by omega)] at e; cases e
  · intro i _
    exact ⟨14 + i, by omega, .look, by show some (act exScript [.look] (14 + i)) = _; rw [ex_late_act (by omega)], Or.inl rfl⟩

theorem ex_fair (p : Nat) : PubFair ex (fun i => some (act exScript [.look] i)) p := by
  refine ⟨?_, 14, fun n hn e => by rw [ex_late_act hn] at e; cases e⟩
  intro i hb
  exfalso
  have h14 : ∀ p, (ex 14).pc p = .idle := by
    intro p
    by_cases hp : p = 3
    · subst hp; decide +kernel
    · have : (ex 14).pc = upd (upd (upd (upd (fun _ => .idle) 3 (.claiming "t" 7)) 3 (.claimed "t" 7 0)) 3 (.written "t" 7 0)) 3 .idle := by rfl
      rw [this, upd_other _ _ hp, upd_other _ _ hp, upd_other _ _ hp, upd_other _ _ hp]
  exact hb (14 + i) (by omega) (by rw [ex_tail]; exact h14 p)

/-- **C72**: the hypotheses of the theorems are met by a concrete execution; the call of `publish` at time 2 returns at time 8, and its
event is passed to the listeners at time 12. -/
theorem C72_example : Run 0 ex (fun i => some (act exScript [.look] i)) ∧ (∀ p, PubFair ex (fun i => some (act exScript [.look] i)) p) ∧
    LoopAlive ex (fun i => some (act exScript [.look] i)) 2 ∧ act exScript [.look] 2 = .call 3 "t" 7 ∧
    (ex 2).accepted = [] ∧ (ex 6).accepted = [(3, "t", 7, 0)] ∧ (ex 7).pc 3 ≠ .idle ∧ (ex 8).pc 3 = .idle ∧
    (ex 11).emitted = [] ∧ (ex 12).emitted = [⟨0, "t", some 7⟩] :=
  ⟨ex_run, ex_fair, ex_alive, rfl, by decide +kernel, by decide +kernel, by decide +kernel, by decide +kernel, by decide +kernel, by decide +kernel⟩

/-! The fairness to publishers in the middle of `publish` is needed: thread 0 claims sequence 0 and is never scheduled again (it was
killed, say); thread 1 claims sequence 1, publishes it and returns; the loop, although it runs for ever, delivers nothing any more. -/

def stScript : List (Act Nat) := [.start, .run, .call 0 "t" 5, .claim 0, .claim 0, .claim 0, .call 1 "t" 6, .claim 1, .claim 1, .claim 1, .write 1, .publish 1]

abbrev stAct (i : Nat) : Act Nat := act stScript [.look, .scan, .advance] i

abbrev st (i : Nat) : St Nat := states 1 stScript [.look, .scan, .advance] i

theorem st_act (d : Nat) : stAct (12 + 3 * d) = .look ∧ stAct (12 + (3 * d + 1)) = .scan ∧ stAct (12 + (3 * d + 2)) = .advance := by
  have key : ∀ r, stAct (12 + r) = (([.look, .scan, .advance] : List (Act Nat))[r % 3]?).getD .look := by
    intro r
    show act stScript _ _ = _
    unfold act
    rw [List.getElem?_eq_none (by simp [stScript])]
    show (_[(12 + r - 12) % 3]?).getD _ = _
    rw [show 12 + r - 12 = r by omega]
  refine ⟨?_, ?_, ?_⟩
  · rw [key, show 3 * d % 3 = 0 by omega]; rfl
  · rw [key, show (3 * d + 1) % 3 = 1 by omega]; rfl
  · rw [key, show (3 * d + 2) % 3 = 2 by omega]; rfl

/-- What does not change in the tail. -/
def Stuck (s : St Nat) : Prop :=
  s.ring.cursor = 1 ∧ s.ring.avail (availIdx 1 0) ≠ availFlag 1 0 ∧ s.emitted = [] ∧ s.pc = (st 12).pc

theorem st_tail (d : Nat) : (Stuck (st (12 + 3 * d)) ∧ (st (12 + 3 * d)).ring.cp 0 = .wait 0) ∧
    (Stuck (st (12 + (3 * d + 1))) ∧ (st (12 + (3 * d + 1))).ring.cp 0 = .scan 0 1 0) ∧
    (Stuck (st (12 + (3 * d + 2))) ∧ (st (12 + (3 * d + 2))).ring.cp 0 = .batch 0 (-1)) ∧
    step 1 (st (12 + 3 * d)) .look = some (st (12 + (3 * d + 1))) ∧
    step 1 (st (12 + (3 * d + 1))) .scan = some (st (12 + (3 * d + 2))) ∧
    step 1 (st (12 + (3 * d + 2))) .advance = some (st (12 + 3 * (d + 1))) := by
  have hstep : ∀ i, st (i + 1) = (step 1 (st i) (stAct i)).getD (st i) := fun i => rfl
  have one : ∀ d, (Stuck (st (12 + 3 * d)) ∧ (st (12 + 3 * d)).ring.cp 0 = .wait 0) →
      (Stuck (st (12 + (3 * d + 1))) ∧ (st (12 + (3 * d + 1))).ring.cp 0 = .scan 0 1 0) ∧
      (Stuck (st (12 + (3 * d + 2))) ∧ (st (12 + (3 * d + 2))).ring.cp 0 = .batch 0 (-1)) ∧
      (Stuck (st (12 + 3 * (d + 1))) ∧ (st (12 + 3 * (d + 1))).ring.cp 0 = .wait 0) ∧
      step 1 (st (12 + 3 * d)) .look = some (st (12 + (3 * d + 1))) ∧
      step 1 (st (12 + (3 * d + 1))) .scan = some (st (12 + (3 * d + 2))) ∧
      step 1 (st (12 + (3 * d + 2))) .advance = some (st (12 + 3 * (d + 1))) := by
    intro d ⟨⟨a1, a2, a3, a5⟩, a4⟩
    have e1 : st (12 + (3 * d + 1)) = (step 1 (st (12 + 3 * d)) .look).getD (st (12 + 3 * d)) := by
      rw [← (st_act d).1]; exact hstep _
    have e2 : st (12 + (3 * d + 2)) = (step 1 (st (12 + (3 * d + 1))) .scan).getD (st (12 + (3 * d + 1))) := by
      rw [← (st_act d).2.1]; exact hstep _
    have e3 : st (12 + 3 * (d + 1)) = (step 1 (st (12 + (3 * d + 2))) .advance).getD (st (12 + (3 * d + 2))) := by
      rw [← (st_act d).2.2]; exact hstep _
    have s1 : step 1 (st (12 + 3 * d)) .look = some { st (12 + 3 * d) with ring := { (st (12 + 3 * d)).ring with cp := upd (st (12 + 3 * d)).ring.cp 0 (.scan 0 1 0) } } := by
      simp [step, lift, MRing.step, a4, a1]
    rw [s1] at e1
    simp only [Option.getD_some] at e1
    have b : Stuck (st (12 + (3 * d + 1))) ∧ (st (12 + (3 * d + 1))).ring.cp 0 = .scan 0 1 0 := by
      rw [e1]; exact ⟨⟨a1, a2, a3, a5⟩, by dsimp only; exact upd_same _ _ _⟩
    obtain ⟨⟨b1, b2, b3, b5⟩, b4⟩ := b
    have s2 : step 1 (st (12 + (3 * d + 1))) .scan = some { st (12 + (3 * d + 1)) with ring := { (st (12 + (3 * d + 1))).ring with cp := upd (st (12 + (3 * d + 1))).ring.cp 0 (.batch 0 (-1)) } } := by
      simp [step, lift, MRing.step, b4, b2]
    rw [s2] at e2
    simp only [Option.getD_some] at e2
    have c : Stuck (st (12 + (3 * d + 2))) ∧ (st (12 + (3 * d + 2))).ring.cp 0 = .batch 0 (-1) := by
      rw [e2]; exact ⟨⟨b1, b2, b3, b5⟩, by dsimp only; exact upd_same _ _ _⟩
    obtain ⟨⟨c1, c2, c3, c5⟩, c4⟩ := c
    have s3 : step 1 (st (12 + (3 * d + 2))) .advance = some { st (12 + (3 * d + 2)) with ring := { (st (12 + (3 * d + 2))).ring with seq := upd (st (12 + (3 * d + 2))).ring.seq 0 (-1), cp := upd (st (12 + (3 * d + 2))).ring.cp 0 (.wait 0) } } := by
      simp [step, lift, MRing.step, c4]
    rw [s3] at e3
    simp only [Option.getD_some] at e3
    have f : Stuck (st (12 + 3 * (d + 1))) ∧ (st (12 + 3 * (d + 1))).ring.cp 0 = .wait 0 := by
      rw [e3]; exact ⟨⟨c1, c2, c3, c5⟩, by dsimp only; exact upd_same _ _ _⟩
    exact ⟨⟨⟨b1, b2, b3, b5⟩, b4⟩, ⟨⟨c1, c2, c3, c5⟩, c4⟩, f, by rw [s1, ← e1], by rw [s2, ← e2], by rw [s3, ← e3]⟩
  have all : ∀ d, Stuck (st (12 + 3 * d)) ∧ (st (12 + 3 * d)).ring.cp 0 = .wait 0 := by
    intro d
    induction d with
    | zero => exact ⟨⟨by decide +kernel, by decide +kernel, by decide +kernel, rfl⟩, by decide +kernel⟩
    | succ d ih => exact (one d ih).2.2.1
  have o := one d (all d)
  exact ⟨all d, o.1, o.2.1, o.2.2.2⟩

theorem three (P : Nat → Prop) (h : ∀ d, P (3 * d) ∧ P (3 * d + 1) ∧ P (3 * d + 2)) : ∀ r, P r := by
  intro r
  have := h (r / 3)
  rcases (by omega : r = 3 * (r / 3) ∨ r = 3 * (r / 3) + 1 ∨ r = 3 * (r / 3) + 2) with e | e | e
  · rw [e]; exact this.1
  · rw [e]; exact this.2.1
  · rw [e]; exact this.2.2

theorem st_run : Run 1 st (fun i => some (stAct i)) :=
  states_run (by decide) (cases_at 12 (by decide +kernel) (three _ (fun d => by
    obtain ⟨_, _, _, h1, h2, h3⟩ := st_tail d
    obtain ⟨a1, a2, a3⟩ := st_act d
    show ((step 1 (st (12 + 3 * d)) (stAct (12 + 3 * d))).isSome = true ∧ okAt _ _ (stAct (12 + 3 * d)) = true) ∧
      ((step 1 (st (12 + (3 * d + 1))) (stAct (12 + (3 * d + 1)))).isSome = true ∧ okAt _ _ (stAct (12 + (3 * d + 1))) = true) ∧
      ((step 1 (st (12 + (3 * d + 2))) (stAct (12 + (3 * d + 2)))).isSome = true ∧ okAt _ _ (stAct (12 + (3 * d + 2))) = true)
    rw [a1, a2, a3, h1, h2, h3]
    exact ⟨⟨rfl, rfl⟩, ⟨rfl, rfl⟩, rfl, rfl⟩)))

/-- **C72, limit**: without fairness to publishers the statement is false, and one thread stopped in the middle of `publish` blocks the
events of all others: sequence 1 was accepted at time 10 and published at time 12, the loop thread runs for ever, every other publisher is
treated fairly, and nothing is ever passed to a listener. -/
theorem C72_stalled_publisher_blocks_all : Run 1 st (fun i => some (stAct i)) ∧ LoopAlive st (fun i => some (stAct i)) 2 ∧
    (∀ p, p ≠ 0 → PubFair st (fun i => some (stAct i)) p) ∧ (1, "t", 6, 1) ∈ (st 10).accepted ∧ (st 12).pc 1 = .idle ∧
    (∀ j, 12 ≤ j → (st j).pc 1 = .idle ∧ (st j).emitted = []) ∧ (st 12).pc 0 = .claimed "t" 5 0 := by
  have tail : ∀ r, Stuck (st (12 + r)) := three _ (fun d => by
    obtain ⟨h1, h2, h3, _⟩ := st_tail d
    exact ⟨h1.1, h2.1, h3.1⟩)
  have hpc : (st 12).pc 1 = .idle := by decide +kernel
  have hact : ∀ r, stAct (12 + r) = .look ∨ stAct (12 + r) = .scan ∨ stAct (12 + r) = .advance := three _ (fun d => by
    obtain ⟨a1, a2, a3⟩ := st_act d
    exact ⟨Or.inl a1, Or.inr (Or.inl a2), Or.inr (Or.inr a3)⟩)
  refine ⟨st_run, ⟨by decide +kernel, ?_, ?_⟩, ?_, by decide +kernel, hpc, ?_, by decide +kernel⟩
  · refine cases_at 12 ?_ ?_
    · intro j hj _ e
      have : ∀ i < 12, stAct i ≠ .stop := by decide +kernel
      exact this j hj (by simpa using e)
    · intro d _ e
      have e : stAct (12 + d) = .stop := by simpa using e
      rcases hact d with h | h | h <;> rw [h] at e <;> cases e
  · intro i _
    exact ⟨12 + 3 * i, by omega, .look, by show some (stAct (12 + 3 * i)) = _; rw [(st_act i).1], Or.inl rfl⟩
  · intro p hp
    refine ⟨?_, 12, fun n hn e => ?_⟩
    swap
    · obtain ⟨d, rfl⟩ : ∃ d, n = 12 + d := ⟨n - 12, by omega⟩
      have e : stAct (12 + d) = .weak p := by simpa using e
      rcases hact d with h | h | h <;> rw [h] at e <;> cases e
    intro i hb
    exfalso
    refine hb (12 + i) (by omega) ?_
    rw [(tail i).2.2.2]
    by_cases h1 : p = 1
    · subst h1; exact hpc
    · have e : ∃ a b c, (st 12).pc = upd (upd (upd (upd (upd (upd (fun _ => .idle) 0 a) 0 (.claimed "t" 5 0)) 1 b) 1 c) 1 (.written "t" 6 1)) 1 .idle :=
        ⟨.claiming "t" 5, .claiming "t" 6, .claimed "t" 6 1, rfl⟩
      obtain ⟨a, b, c, e⟩ := e
      rw [e]
      simp only [upd_other _ _ h1, upd_other _ _ hp]
  · intro j hj
    obtain ⟨r, rfl⟩ : ∃ r, j = 12 + r := ⟨j - 12, by omega⟩
    exact ⟨by rw [(tail r).2.2.2]; exact hpc, (tail r).2.2.1⟩

end Verif.EvLoop
