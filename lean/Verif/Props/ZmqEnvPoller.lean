import Verif.Model.ZmqEnvPoller
import Verif.Lemmas.Fair

/-! C95: the thread of a shared environment and the messages on its socket. -/

namespace Verif.ZEP
open Verif Verif.Fair

variable {F E K D : Type} [DecidableEq K] {g : Cfg F E K D} {P : List F → Prop} {e : E}

/-- What the thread holds. -/
def Pc.held : Pc F → List F
  | .haveTopic t => [t]
  | _ => []

theorem expected_append (decode : F → Option (Upd K D)) (adopt : E → D → E) (key : K) (me : Nat) (cs ds : List F) : ∀ e : E,
    expected decode adopt key me e (cs ++ ds) = expected decode adopt key me (expected decode adopt key me e cs) ds := by
  induction cs with
  | nil => intro e; rfl
  | cons c cs ih =>
    intro e
    simp only [List.cons_append, expected]
    split <;> exact ih _

omit [DecidableEq K] in
theorem frames_append (a b : List (F × F)) : frames (a ++ b) = frames a ++ frames b := by simp [frames]

structure Inv (g : Cfg F E K D) (e : E) (s : St F E) : Prop where
  cut : s.arrived = frames s.taken ++ s.pc.held ++ s.socket
  env : s.env = expected g.decode g.adopt g.key g.me e (s.taken.map (·.2))
  /-- the process lives as long as everything received could be decoded -/
  life : s.pc = .dead ↔ ∃ p ∈ s.taken, g.decode p.2 = none
  ctl : s.ctl = .uses ↔ s.running = true
  ended : s.pc = .ended → s.running = false
  gone : s.ctl = .gone → s.pc = .ended

theorem Inv.step {s s' : St F E} {a : Act F} (hi : Inv g e s) (hs : ZEP.step g s a = some s') : Inv g e s' := by
  have hcut := hi.cut
  cases a with
  | arrive ps =>
    simp only [ZEP.step] at hs
    split at hs <;> cases hs
    exact { hi with cut := by simp [hcut] }
  | timeout =>
    simp only [ZEP.step] at hs
    (repeat' split at hs) <;> cases hs
    exact hi
  | recvTopic =>
    simp only [ZEP.step] at hs
    (repeat' split at hs) <;> cases hs
    next t r hp hk hr =>
    exact { hi with
      cut := by rw [hp, hk] at hcut; simpa [Pc.held] using hcut
      life := by have := hi.life; rw [hp] at this; simpa using this
      ended := nofun
      gone := fun h => by have := hi.gone h; rw [hp] at this; cases this }
  | recvContent =>
    simp only [ZEP.step] at hs
    split at hs
    · next t c r hp hk =>
      have hl := hi.life
      rw [hp] at hl
      simp only [reduceCtorEq, false_iff] at hl
      have hgone : s.ctl ≠ .gone := fun h => by have := hi.gone h; rw [hp] at this; cases this
      split at hs <;> cases hs
      · next hd =>
        refine { hi with cut := ?_, env := ?_, life := ?_, ended := nofun, gone := fun h => absurd h hgone }
        · rw [hp, hk] at hcut; simpa [frames_append, frames, Pc.held] using hcut
        · rw [List.map_append, expected_append, ← hi.env]; simp [expected, hd]
        · simp only [true_iff]
          exact ⟨(t, c), by simp, hd⟩
      · next u hd =>
        refine { hi with cut := ?_, env := ?_, life := ?_, ended := nofun, gone := fun h => absurd h hgone }
        · rw [hp, hk] at hcut; simpa [frames_append, frames, Pc.held] using hcut
        · rw [List.map_append, expected_append, ← hi.env]; simp [expected, hd]
        · simp only [reduceCtorEq, false_iff]
          rintro ⟨p, hm, hn⟩
          rcases List.mem_append.mp hm with hm | hm
          · exact hl ⟨p, hm, hn⟩
          · simp only [List.mem_singleton] at hm
            subst hm
            rw [hd] at hn; cases hn
    · cases hs
  | leave =>
    simp only [ZEP.step] at hs
    (repeat' split at hs) <;> cases hs
    next hp hr =>
    exact { hi with
      cut := by rw [hp] at hcut; simpa [Pc.held] using hcut
      life := by have := hi.life; rw [hp] at this; simpa using this
      ended := fun _ => by simpa using hr
      gone := fun _ => rfl }
  | destroy =>
    simp only [ZEP.step] at hs
    split at hs <;> cases hs
    exact { hi with ctl := by simp, ended := fun _ => rfl, gone := nofun }
  | joined =>
    simp only [ZEP.step] at hs
    split at hs <;> cases hs
    next h1 h2 =>
    refine { hi with ctl := ?_, gone := fun _ => h1 }
    have := hi.ctl
    rw [h2] at this
    simpa using this

theorem Reach.inv {s : St F E} (h : Reach g P e s) : Inv g e s := by
  induction h with
  | init => exact ⟨by simp [St.init, frames, Pc.held], rfl, by simp [St.init], by simp [St.init], nofun, nofun⟩
  | step _ _ hs ih => exact ih.step hs

/-- **C95**, what holds whatever arrives: the frames are received in pairs, in order of arrival, none is lost, repeated or reordered; the environment is the result
of the updates among them for its key that others have sent; the process is alive exactly as long as every content received could be decoded. -/
theorem C95_frames_in_pairs {s : St F E} (h : Reach g P e s) :
    s.arrived = frames s.taken ++ s.pc.held ++ s.socket ∧ s.env = expected g.decode g.adopt g.key g.me e (s.taken.map (·.2)) ∧
    (s.pc = .dead ↔ ∃ p ∈ s.taken, g.decode p.2 = none) :=
  ⟨h.inv.cut, h.inv.env, h.inv.life⟩

/-! ### Messages as the environments send them -/

/-- Two parts, the second of which can be decoded. -/
def Proper (g : Cfg F E K D) (ps : List F) : Prop := ∃ t c, ps = [t, c] ∧ (g.decode c).isSome

/-- The messages that arrived, all proper. -/
def Sent (g : Cfg F E K D) (ms : List (F × F)) (s : St F E) : Prop := s.arrived = frames ms ∧ ∀ m ∈ ms, (g.decode m.2).isSome

theorem step_arrived {s s' : St F E} {a : Act F} (hs : ZEP.step g s a = some s') : s'.arrived = s.arrived ∨ ∃ ps, a = .arrive ps ∧ s'.arrived = s.arrived ++ ps := by
  cases a <;> simp only [ZEP.step] at hs <;> (repeat' split at hs) <;> cases hs <;> first | exact .inl rfl | exact .inr ⟨_, rfl, rfl⟩

theorem Reach.sent {s : St F E} (h : Reach g (Proper g) e s) : ∃ ms, Sent g ms s := by
  induction h with
  | init => exact ⟨[], by simp [Sent, St.init, frames]⟩
  | @step s s' a _ hP hs ih =>
    obtain ⟨ms, h1, h2⟩ := ih
    rcases step_arrived hs with hk | ⟨ps, rfl, hk⟩
    · exact ⟨ms, hk.trans h1, h2⟩
    · obtain ⟨t, c, rfl, hd⟩ := hP ps rfl
      refine ⟨ms ++ [(t, c)], by rw [hk, h1, frames_append]; simp [frames], ?_⟩
      intro m hm
      rcases List.mem_append.mp hm with hm | hm
      · exact h2 m hm
      · simp only [List.mem_singleton] at hm; subst hm; exact hd

omit [DecidableEq K] in
theorem frames_prefix : ∀ (a b : List (F × F)) (x : List F), frames b = frames a ++ x → ∃ r, b = a ++ r ∧ x = frames r := by
  intro a
  induction a with
  | nil => intro b x h; exact ⟨b, rfl, by simpa [frames] using h.symm⟩
  | cons p a ih =>
    intro b x h
    cases b with
    | nil => simp [frames] at h
    | cons q b =>
      have h' : q.1 :: q.2 :: frames b = p.1 :: p.2 :: (frames a ++ x) := by simpa [frames] using h
      simp only [List.cons.injEq] at h'
      obtain ⟨e1, e2, e3⟩ := h'
      obtain ⟨r, rfl, hx⟩ := ih b x e3
      exact ⟨r, by rw [show q = p from Prod.ext e1 e2]; rfl, hx⟩

/-- What is left of proper messages: those not received, the first of them possibly begun. -/
theorem Reach.left {s : St F E} (h : Reach g (Proper g) e s) {ms : List (F × F)} (hm : Sent g ms s) :
    ∃ r, ms = s.taken ++ r ∧ s.pc.held ++ s.socket = frames r ∧ s.pc ≠ .dead := by
  have hc := h.inv.cut
  rw [hm.1, List.append_assoc] at hc
  obtain ⟨r, rfl, hx⟩ := frames_prefix _ _ _ hc
  refine ⟨r, rfl, hx, fun hd => ?_⟩
  obtain ⟨p, hp, hn⟩ := h.inv.life.mp hd
  have := hm.2 p (List.mem_append_left _ hp)
  rw [hn] at this; cases this

/-- **C95**, if every message that arrives has two parts and a decodable content (as the environments send them): the process is not terminated, and at any time the
environment is what it should be after the first of the messages that arrived, all of them once nothing is left on the socket.
Missing: other messages, `C95_violation_malformed`, `C95_violation_one_part`. -/
theorem C95_adopts_partial {s : St F E} (h : Reach g (Proper g) e s) {ms : List (F × F)} (hm : Sent g ms s) :
    s.pc ≠ .dead ∧ s.taken <+: ms ∧ s.env = expected g.decode g.adopt g.key g.me e (s.taken.map (·.2)) ∧
    (s.socket = [] → s.taken = ms) := by
  obtain ⟨r, hr, hx, hd⟩ := h.left hm
  refine ⟨hd, ⟨r, hr.symm⟩, h.inv.env, fun hs => ?_⟩
  rw [hs, List.append_nil] at hx
  cases r with
  | nil => simpa using hr.symm
  | cons p r =>
    have h2 : frames (p :: r) = p.1 :: p.2 :: frames r := by simp [frames]
    rw [h2] at hx
    cases hp : s.pc <;> rw [hp] at hx <;> simp [Pc.held] at hx

/-! ### In the end -/

/-- Actions of the polling thread. -/
def Act.isThread : Act F → Bool
  | .timeout => true
  | .recvTopic => true
  | .recvContent => true
  | .leave => true
  | _ => false

/-- The thread runs (waiting inside `recv` counts as not running). -/
def Busy (s : St F E) : Prop := s.pc = .top ∨ (∃ t, s.pc = .haveTopic t) ∧ s.socket ≠ []

/-- An infinite execution with proper messages in which the thread is scheduled, and the program when its `join` can return. -/
structure Run (g : Cfg F E K D) (e : E) (σ : Nat → St F E) (α : Nat → Option (Act F)) : Prop where
  init : σ 0 = St.init e
  exec : Exec (step g) σ α
  proper : ∀ i ps, α i = some (.arrive ps) → Proper g ps
  thread : FairTo Busy (fun a => a.isThread = true) σ α
  join : FairTo (fun s => s.pc = .ended ∧ s.ctl = .joining) (fun a => a = .joined) σ α

variable {σ : Nat → St F E} {α : Nat → Option (Act F)}

theorem Run.next (h : Run g e σ α) (i : Nat) : (α i = none ∧ σ (i + 1) = σ i) ∨ ∃ a, α i = some a ∧ step g (σ i) a = some (σ (i + 1)) := by
  have := h.exec i
  cases e : α i with
  | none => rw [e] at this; exact Or.inl ⟨rfl, this⟩
  | some a => rw [e] at this; exact Or.inr ⟨a, rfl, this⟩

theorem Run.reach (h : Run g e σ α) (i : Nat) : Reach g (Proper g) e (σ i) := by
  induction i with
  | zero => rw [h.init]; exact Reach.init
  | succ i ih =>
    rcases h.next i with ⟨_, e⟩ | ⟨a, ha, e⟩
    · rw [e]; exact ih
    · exact ih.step (fun ps hp => h.proper i ps (by rw [ha, hp])) e

/-- With proper messages a thread inside `recv` finds the content. -/
theorem Reach.content {s : St F E} (h : Reach g (Proper g) e s) {t : F} (hp : s.pc = .haveTopic t) :
    ∃ c r u, s.socket = c :: r ∧ g.decode c = some u := by
  obtain ⟨ms, hm⟩ := h.sent
  obtain ⟨q, hq, hx, _⟩ := h.left hm
  rw [hp] at hx
  cases q with
  | nil => simp [Pc.held, frames] at hx
  | cons p q =>
    have h2 : frames (p :: q) = p.1 :: p.2 :: frames q := by simp [frames]
    rw [h2] at hx
    simp only [Pc.held, List.singleton_append, List.cons.injEq] at hx
    have := hm.2 p (by rw [hq]; simp)
    obtain ⟨u, hu⟩ := Option.isSome_iff_exists.mp this
    exact ⟨_, _, u, hx.2, hu⟩

/-- Frames received. -/
def got (s : St F E) : Nat := 2 * s.taken.length + s.pc.held.length

theorem got_step {s s' : St F E} {a : Act F} (hs : step g s a = some s') :
    got s ≤ got s' ∧ (a = .recvTopic ∨ a = .recvContent → got s' = got s + 1) := by
  cases a <;> simp only [step] at hs <;> (repeat' split at hs) <;> cases hs <;> simp_all [got, Pc.held] <;> omega

theorem length_frames (ms : List (F × F)) : (frames ms).length = 2 * ms.length := by
  induction ms with
  | nil => rfl
  | cons m ms ih => simp only [frames, List.flatMap_cons, List.length_append, List.length_cons, List.length_nil] at ih ⊢; omega

theorem got_le {s : St F E} (h : Reach g (Proper g) e s) {ms : List (F × F)} (hm : Sent g ms s) : got s + s.socket.length = 2 * ms.length := by
  have := congrArg List.length h.inv.cut
  rw [hm.1] at this
  simp only [List.length_append, length_frames] at this
  simp only [got]
  omega

/-- **C95**, liveness: while the environment is not destroyed, every message that has arrived is received in the end, so that the environment then contains all
the updates among them (`C95_adopts_partial`).
Missing: other than proper messages. -/
theorem C95_received_in_the_end_partial (h : Run g e σ α) {i : Nat} (hr : ∀ j, i ≤ j → (σ j).running = true) {ms : List (F × F)} (hm : Sent g ms (σ i)) :
    ∃ j, i ≤ j ∧ ms <+: (σ j).taken := by
  have hpc : ∀ j, i ≤ j → (σ j).pc = .top ∨ ∃ t c r u, (σ j).pc = .haveTopic t ∧ (σ j).socket = c :: r ∧ g.decode c = some u := by
    intro j hj
    cases hp : (σ j).pc with
    | top => exact .inl rfl
    | haveTopic t => obtain ⟨c, r, u, h1, h2⟩ := (h.reach j).content hp; exact .inr ⟨t, c, r, u, rfl, h1, h2⟩
    | ended => have := (h.reach j).inv.ended hp; rw [hr j hj] at this; cases this
    | dead =>
      obtain ⟨ms', hm'⟩ := (h.reach j).sent
      exact absurd hp ((h.reach j).left hm').choose_spec.2.2
  have hbusy : ∀ j, i ≤ j → Busy (σ j) := by
    intro j hj
    rcases hpc j hj with hp | ⟨t, c, r, u, hp, hk, _⟩
    · exact .inl hp
    · exact .inr ⟨⟨t, hp⟩, by rw [hk]; simp⟩
  -- what has arrived only grows
  have harr : ∀ j, i ≤ j → (σ i).arrived <+: (σ j).arrived := by
    intro j hj
    induction hj with
    | refl => exact List.prefix_rfl
    | @step m hm ih =>
      rcases h.next m with ⟨_, e⟩ | ⟨a, _, e⟩
      · rw [e]; exact ih
      · rcases step_arrived e with hk | ⟨ps, _, hk⟩ <;> rw [hk]
        · exact ih
        · exact ih.trans (List.prefix_append _ _)
  obtain ⟨j, hj, hg⟩ := eventually (σ := σ) (α := α) (fun a => a.isThread = true) (fun s => 2 * ms.length ≤ got s) (fun s => 2 * ms.length - got s) i
    (fun k hk => h.thread k (fun j hj => hbusy j (Nat.le_trans hk hj)))
    (by
      intro j hj hn
      rcases h.next j with ⟨ha, e⟩ | ⟨a, ha, e⟩
      · rw [e]; exact ⟨Nat.le_refl _, fun b hb => by rw [ha] at hb; cases hb⟩
      · have hs := got_step e
        refine ⟨by omega, fun b hb ho => ?_⟩
        rw [ha] at hb
        cases hb
        -- something is on the socket
        have hne : (σ j).pc = .top → (σ j).socket ≠ [] := by
          intro hp hk
          obtain ⟨ms', hm'⟩ := (h.reach j).sent
          have h1 := got_le (h.reach j) hm'
          have h2 := (harr j hj).length_le
          rw [hm.1, hm'.1, length_frames, length_frames] at h2
          rw [hk] at h1
          simp only [List.length_nil] at h1
          omega
        have : a = .recvTopic ∨ a = .recvContent := by
          cases a with
          | recvTopic => exact .inl rfl
          | recvContent => exact .inr rfl
          | timeout =>
            exfalso
            rcases hpc j hj with hp | ⟨t, c, r, u, hp, hk, _⟩
            · cases hk : (σ j).socket with
              | nil => exact hne hp hk
              | cons x r => simp [step, hp, hk] at e
            · simp [step, hp] at e
          | leave =>
            exfalso
            rcases hpc j hj with hp | ⟨t, c, r, u, hp, hk, _⟩
            · simp [step, hp, hr j hj] at e
            · simp [step, hp] at e
          | arrive ps => cases ho
          | destroy => cases ho
          | joined => cases ho
        have := hs.2 this
        omega)
  refine ⟨j, hj, ?_⟩
  obtain ⟨ms', hm'⟩ := (h.reach j).sent
  obtain ⟨x, hx⟩ := harr j hj
  rw [hm.1, hm'.1] at hx
  obtain ⟨r, hr', _⟩ := frames_prefix _ _ _ hx.symm
  obtain ⟨q, hq, _, _⟩ := (h.reach j).left hm'
  have h1 : ms <+: ms' := ⟨r, hr'.symm⟩
  have h2 : (σ j).taken <+: ms' := ⟨q, hq.symm⟩
  refine List.prefix_of_prefix_length_le h1 h2 ?_
  have h3 : (σ j).pc.held.length ≤ 1 := by cases (σ j).pc <;> simp [Pc.held]
  simp only [got] at hg
  omega

/-- How far the thread is from its end, once told. -/
def Pc.rank : Pc F → Nat
  | .haveTopic _ => 2
  | .top => 1
  | _ => 0

/-- What the steps do while the destructor waits. -/
theorem join_step {s s' : St F E} (h : Reach g (Proper g) e s) (hc : s.ctl = .joining) {a : Act F} (hs : step g s a = some s') :
    (s'.ctl = .gone ∧ a = .joined) ∨
    (s'.ctl = .joining ∧ s'.pc.rank ≤ s.pc.rank ∧ (a.isThread = true → s'.pc.rank < s.pc.rank) ∧ a ≠ .joined) := by
  have hru : s.running = false := by
    have := h.inv.ctl
    rw [hc] at this
    simpa using this
  cases a <;> simp only [step] at hs <;> (repeat' split at hs) <;> cases hs <;> simp_all [Pc.rank, Act.isThread]

/-- **C95**, the destructor returns: with proper messages, a destructor that has begun ends, and the thread has ended then.
Missing: other messages, `C95_violation_destructor_hangs`. -/
theorem C95_destructor_returns_partial (h : Run g e σ α) {i : Nat} (hc : (σ i).ctl = .joining) : ∃ j, i ≤ j ∧ (σ j).ctl = .gone ∧ (σ j).pc = .ended := by
  have main : ∃ j, i ≤ j ∧ (σ j).ctl = .gone := by
    apply Classical.byContradiction
    intro hno
    have stay : ∀ j, i ≤ j → (σ j).ctl = .joining := by
      intro j hj
      induction hj with
      | refl => exact hc
      | @step m hm ih =>
        rcases h.next m with ⟨_, e⟩ | ⟨a, _, e⟩
        · rw [e]; exact ih
        · rcases join_step (h.reach m) ih e with ⟨h1, _⟩ | ⟨h1, _⟩
          · exact absurd ⟨m + 1, Nat.le_succ_of_le hm, h1⟩ hno
          · exact h1
    have move : ∀ m, i ≤ m → (σ (m + 1)).pc.rank ≤ (σ m).pc.rank ∧ ∀ a, α m = some a → a ≠ .joined ∧ (a.isThread = true → (σ (m + 1)).pc.rank < (σ m).pc.rank) := by
      intro m hm
      rcases h.next m with ⟨ha, e⟩ | ⟨a, ha, e⟩
      · rw [e]; exact ⟨Nat.le_refl _, fun b hb => by rw [ha] at hb; cases hb⟩
      · rcases join_step (h.reach m) (stay m hm) e with ⟨h1, _⟩ | ⟨_, h2, h3, h4⟩
        · rw [stay (m + 1) (Nat.le_succ_of_le hm)] at h1; cases h1
        · refine ⟨h2, fun b hb => ?_⟩
          rw [ha] at hb; cases hb
          exact ⟨h4, h3⟩
    have notdead : ∀ j, (σ j).pc ≠ .dead := fun j => by
      obtain ⟨ms', hm'⟩ := (h.reach j).sent
      exact ((h.reach j).left hm').choose_spec.2.2
    have hend : ∃ j, i ≤ j ∧ (σ j).pc = .ended := by
      apply Classical.byContradiction
      intro hn
      have hb : ∀ j, i ≤ j → Busy (σ j) := by
        intro j hj
        cases hp : (σ j).pc with
        | top => exact .inl hp
        | haveTopic t => obtain ⟨c, r, u, h1, h2⟩ := (h.reach j).content hp; exact .inr ⟨⟨t, hp⟩, by rw [h1]; simp⟩
        | ended => exact absurd ⟨j, hj, hp⟩ hn
        | dead => exact absurd hp (notdead j)
      obtain ⟨j, hj, hz⟩ := eventually (σ := σ) (α := α) (fun a => a.isThread = true) (fun s => s.pc.rank = 0) (fun s => s.pc.rank) i
        (fun k hk => h.thread k (fun j hj => hb j (Nat.le_trans hk hj)))
        (fun j hj _ => ⟨(move j hj).1, fun a ha ho => ((move j hj).2 a ha).2 ho⟩)
      cases hp : (σ j).pc with
      | top => rw [hp] at hz; cases hz
      | haveTopic t => rw [hp] at hz; cases hz
      | ended => exact hn ⟨j, hj, hp⟩
      | dead => exact notdead j hp
    obtain ⟨k, hk, hz⟩ := hend
    have hz' : ∀ j, k ≤ j → (σ j).pc = .ended := by
      intro j hj
      have hr : (σ j).pc.rank = 0 := by
        induction hj with
        | refl => rw [hz]; rfl
        | @step m hm ih =>
          have := (move m (Nat.le_trans hk hm)).1
          show (σ (m + 1)).pc.rank = 0
          omega
      cases hp : (σ j).pc with
      | top => rw [hp] at hr; cases hr
      | haveTopic t => rw [hp] at hr; cases hr
      | ended => rfl
      | dead => exact absurd hp (notdead j)
    obtain ⟨j, hj, a, ha, ho⟩ := h.join k (fun j hj => ⟨hz' j hj, stay j (Nat.le_trans hk hj)⟩)
    exact ((move j (Nat.le_trans hk hj)).2 a ha).1 ho
  obtain ⟨j, hj, hg⟩ := main
  exact ⟨j, hj, hg, (h.reach j).inv.gone hg⟩

/-! ### Findings -/

/-- Finding against **C95**, malformed content: whatever happened so far, if a content that cannot be decoded is next, the thread terminates the process. -/
theorem C95_violation_malformed {s : St F E} (hp : s.pc = .top) (hr : s.running = true) {t c : F} {rest : List F} (hk : s.socket = t :: c :: rest)
    (hd : g.decode c = none) : ∃ s', run g s [.recvTopic, .recvContent] = some s' ∧ s'.pc = .dead ∧ ∀ a, step g s' a = none := by
  simp only [run, step, hp, hk, hr, hd, if_true]
  refine ⟨_, rfl, rfl, fun a => ?_⟩
  cases a <;> rfl

/-- Finding against **C95**: the topic is not looked at: an update for the key is adopted from any topic the socket receives. -/
theorem C95_violation_any_topic {s : St F E} (hp : s.pc = .top) (hr : s.running = true) {t c : F} {rest : List F} (hk : s.socket = t :: c :: rest)
    {u : Upd K D} (hd : g.decode c = some u) (hkey : u.key = g.key) (hsrc : u.source ≠ g.me) :
    ∃ s', run g s [.recvTopic, .recvContent] = some s' ∧ s'.env = g.adopt s.env u.data := by
  simp only [run, step, hp, hk, hr, hd, if_true]
  exact ⟨_, rfl, by simp [hkey, hsrc]⟩

/-- Finding against **C95**, a message of one part: when it has been received as a topic, the next update is taken apart wrongly: its topic is decoded as a content,
which terminates the process if it cannot be decoded. -/
theorem C95_violation_one_part {s : St F E} (hp : s.pc = .top) (hr : s.running = true) (hk : s.socket = []) {x t c : F} (hd : g.decode t = none) :
    ∃ s', run g s [.arrive [x], .recvTopic, .arrive [t, c], .recvContent] = some s' ∧ s'.pc = .dead ∧ s'.taken = s.taken ++ [(x, t)] := by
  simp only [run, step, hp, hk, hr, List.nil_append, if_true, hd]
  exact ⟨_, rfl, rfl, rfl⟩

/-- Finding against **C95**, the same message and the destructor: the thread waits inside `recv` for a second part, the destructor waits for the thread: as long as
no further message arrives neither goes on, whatever is scheduled. -/
theorem C95_violation_destructor_hangs {s : St F E} {x : F} (hp : s.pc = .haveTopic x) (hk : s.socket = []) (hc : s.ctl = .joining) {as : List (Act F)}
    (ha : ∀ ps, .arrive ps ∉ as) {s' : St F E} (hs : run g s as = some s') : s' = s := by
  cases as with
  | nil => simp only [run, Option.some.injEq] at hs; exact hs.symm
  | cons a as =>
    exfalso
    have : step g s a = none := by
      cases a with
      | arrive ps => exact absurd List.mem_cons_self (ha ps)
      | _ => simp [step, hp, hk, hc]
    simp [run, this] at hs

/-! ### Concrete cases -/

/-- Contents are pairs of key and source with a number as data; 0 cannot be decoded, nor can the topic 7. -/
def exG : Cfg Nat (List Nat) Nat Nat where
  decode n := if n = 0 ∨ n = 7 then none else some ⟨n % 10, n / 10 % 10, n / 100⟩
  adopt e d := d :: e
  key := 1
  me := 2

/-- Two updates for the key, one of them our own, one of another key. -/
def exRun : List (Act Nat) :=
  [.timeout, .arrive [7, 531], .arrive [7, 621], .recvTopic, .arrive [7, 733], .recvContent, .recvTopic, .recvContent, .recvTopic, .destroy, .recvContent, .leave, .joined]

theorem C95_example : (run exG (St.init []) exRun).map (fun s => (s.env, s.taken, s.pc, s.ctl)) =
    some ([5], [(7, 531), (7, 621), (7, 733)], .ended, .gone) := by decide +kernel

theorem C95_hang_example : (run exG (St.init []) [.arrive [5], .recvTopic, .destroy]).map (fun s => (s.pc, s.socket, s.ctl)) = some (.haveTopic 5, [], .joining) := by
  decide +kernel

/-- The same execution, infinite: the hypotheses of the liveness theorems are met. -/
def exσ (i : Nat) : St Nat (List Nat) := (run exG (St.init []) (exRun.take i)).getD (St.init [])

theorem run_append (s : St F E) (as bs : List (Act F)) : run g s (as ++ bs) = (run g s as).bind fun s => run g s bs := by
  induction as generalizing s with
  | nil => rfl
  | cons a as ih => simp only [List.cons_append, run]; cases step g s a <;> simp [ih]

theorem C95_run_example : Run exG [] exσ (fun i => exRun[i]?) ∧ (exσ 10).ctl = .joining ∧ Sent exG [(7, 531), (7, 621)] (exσ 3) := by
  have hend : ∀ i, 13 ≤ i → exσ i = exσ 13 ∧ exRun[i]? = none := by
    intro i hi
    have hl : exRun.length = 13 := rfl
    exact ⟨by simp only [exσ]; rw [List.take_of_length_le (by omega), List.take_of_length_le (by omega)], by simp [hl, hi]⟩
  have hlast : (exσ 13).pc = .ended ∧ (exσ 13).ctl = .gone := by decide +kernel
  refine ⟨⟨rfl, ?_, ?_, ?_, ?_⟩, by decide +kernel, ?_⟩
  · intro i
    by_cases hi : i < 13
    · have hget : exRun[i]? = some exRun[i] := List.getElem?_eq_getElem hi
      have htake : exRun.take (i + 1) = exRun.take i ++ [exRun[i]] := by rw [List.take_add_one, hget]; rfl
      have hrun : (run exG (St.init []) (exRun.take i)).isSome := by
        have : ∀ j < 13, (run exG (St.init []) (exRun.take j)).isSome := by decide +kernel
        exact this i hi
      have hrun' : (run exG (St.init []) (exRun.take (i + 1))).isSome := by
        have : ∀ j < 13, (run exG (St.init []) (exRun.take (j + 1))).isSome := by decide +kernel
        exact this i hi
      obtain ⟨s, hs⟩ := Option.isSome_iff_exists.mp hrun
      obtain ⟨s', hs'⟩ := Option.isSome_iff_exists.mp hrun'
      have h1 : exσ i = s := by simp [exσ, hs]
      have h2 : exσ (i + 1) = s' := by simp [exσ, hs']
      rw [htake, run_append, hs] at hs'
      simp only [Option.bind, run] at hs'
      simp only [hget, h1, h2]
      split at hs'
      · cases hs'
      · next h => cases hs'; exact h
    · obtain ⟨h1, h2⟩ := hend i (by omega)
      obtain ⟨h3, _⟩ := hend (i + 1) (by omega)
      simp only [h2, h1, h3]
  · intro i ps hi
    have hm := List.mem_of_getElem? hi
    simp only [exRun, List.mem_cons, Act.arrive.injEq, reduceCtorEq, false_or, List.not_mem_nil, or_false] at hm
    rcases hm with rfl | rfl | rfl
    · exact ⟨7, 531, rfl, by decide +kernel⟩
    · exact ⟨7, 621, rfl, by decide +kernel⟩
    · exact ⟨7, 733, rfl, by decide +kernel⟩
  · intro i hb
    have := hb (max i 13) (Nat.le_max_left ..)
    rw [(hend _ (Nat.le_max_right ..)).1] at this
    rcases this with h | ⟨⟨t, h⟩, _⟩ <;> rw [hlast.1] at h <;> cases h
  · intro i hb
    have := (hb (max i 13) (Nat.le_max_left ..)).2
    rw [(hend _ (Nat.le_max_right ..)).1, hlast.2] at this
    cases this
  · exact ⟨by decide +kernel, by intro m hm; simp only [List.mem_cons, List.not_mem_nil, or_false] at hm; rcases hm with rfl | rfl <;> decide +kernel⟩

end Verif.ZEP
