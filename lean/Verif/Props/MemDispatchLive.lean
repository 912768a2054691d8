import Verif.Spec.MemDispatchLive
import Verif.Props.MemDispatch

/-! C81, progress: every accepted event that is not discarded reaches the listeners. -/

namespace Verif.MemD
open Verif ElD Verif.Fair

variable {D : Type} [DecidableEq D]

section
variable {C : Chan D} {n : String} {c : Bool} {kind : Kind} {σ : Nat → St C} {α : Nat → Option (Act C)}

omit [DecidableEq D] in
theorem Run.next (h : Run C n c kind σ α) (i : Nat) : (α i = none ∧ σ (i + 1) = σ i) ∨ ∃ a, α i = some a ∧ step n c (σ i) a = some (σ (i + 1)) := by
  have := h.exec i
  cases ha : α i with
  | none => rw [ha] at this; exact Or.inl ⟨rfl, this⟩
  | some a => rw [ha] at this; exact Or.inr ⟨a, rfl, this⟩

omit [DecidableEq D] in
theorem Run.reach (h : Run C n c kind σ α) (i : Nat) : Reach n c kind (σ i) := by
  induction i with
  | zero => exact h.start
  | succ i ih =>
    rcases h.next i with ⟨_, e⟩ | ⟨a, ha, e⟩
    · rw [e]; exact ih
    · exact .step ih (h.ok i a ha) e

/-- What the middleware sees of a step. -/
def proj : Act C → Option C.Act
  | .ch a => some a
  | .fin => some C.emit
  | _ => none

theorem step_proj {emitted : C.σ → List D} (hl : Lawful C emitted) {s s' : St C} (h : Reach n c kind s) {a : Act C} (ha : a ≠ .call false)
    (hs : step n c s a = some s') :
    match proj a with
    | none => s'.ch = s.ch
    | some b => C.step s.ch b = some s'.ch := by
  obtain ⟨x, ls, _, hi⟩ := h.inv hl
  cases a with
  | call ret =>
    cases ret with
    | false => exact absurd rfl ha
    | true =>
      show s'.ch = s.ch
      simp only [step] at hs
      split at hs
      · rename_i d h rest hd
        rw [if_neg (by simp)] at hs
        split at hs
        · rename_i ho
          have hcur := hi.cur
          rw [hd] at hcur
          match hc : x.cur with
          | none => rw [hc] at hcur; exact hcur.elim
          | some (n', m', ents) =>
            rw [hc] at hcur
            obtain ⟨_, _, _, h3⟩ := hcur
            cases h3 with
            | cons hte _ =>
              obtain ⟨y, x1, x2, x3, x4⟩ := hte.2.2.2 ho
              obtain ⟨em, he, _⟩ := hi.rep.remove c x1
              rw [x2] at he
              rw [he] at hs
              cases hs; rfl
        · cases hs; rfl
      · cases hs
  | ch b =>
    simp only [step] at hs
    split at hs
    · cases hs
    · obtain ⟨ch, hc, rfl⟩ := Option.map_eq_some_iff.mp hs
      exact hc
  | fin =>
    simp only [step] at hs
    split at hs
    · obtain ⟨ch, hc, rfl⟩ := Option.map_eq_some_iff.mp hs
      exact hc
    · cases hs
  | _ =>
    simp only [step] at hs
    (repeat' split at hs) <;> first | (cases hs; done) | (cases hs; rfl)

/-- Only the end of a delivery changes what is still to be delivered, apart from the turns of the poller. -/
theorem step_del {emitted : C.σ → List D} (hl : Lawful C emitted) {s s' : St C} (h : Reach n c kind s) {a : Act C} (ha : a ≠ .call false)
    (hs : step n c s a = some s') {d : D} {todo : List Handler} (hd : s.del = some (d, todo)) (hf : a ≠ .fin) :
    a ≠ .take ∧ ∃ todo', s'.del = some (d, todo') ∧ todo'.length ≤ todo.length ∧ (a = .call true → todo'.length < todo.length) := by
  obtain ⟨x, ls, _, hi⟩ := h.inv hl
  cases a with
  | fin => exact absurd rfl hf
  | take => simp only [step, hd] at hs; cases hs
  | call ret =>
    cases ret with
    | false => exact absurd rfl ha
    | true =>
      refine ⟨nofun, ?_⟩
      simp only [step, hd] at hs
      split at hs
      · rename_i d' h rest hdd
        cases hdd
        rw [if_neg (by simp)] at hs
        split at hs
        · rename_i ho
          have hcur := hi.cur
          rw [hd] at hcur
          match hc : x.cur with
          | none => rw [hc] at hcur; exact hcur.elim
          | some (n', m', ents) =>
            rw [hc] at hcur
            obtain ⟨_, _, _, h3⟩ := hcur
            cases h3 with
            | cons hte _ =>
              obtain ⟨y, x1, x2, x3, x4⟩ := hte.2.2.2 ho
              obtain ⟨em, he, _⟩ := hi.rep.remove c x1
              rw [x2] at he
              rw [he] at hs
              cases hs
              exact ⟨rest, rfl, by simp, fun _ => by simp⟩
        · cases hs
          exact ⟨rest, rfl, by simp, fun _ => by simp⟩
      · cases hs
  | ch b =>
    simp only [step] at hs
    split at hs
    · cases hs
    · obtain ⟨ch, hc, rfl⟩ := Option.map_eq_some_iff.mp hs
      exact ⟨nofun, todo, hd, Nat.le_refl _, nofun⟩
  | _ =>
    simp only [step] at hs
    (repeat' split at hs) <;> first | (cases hs; done) | (cases hs; exact ⟨nofun, todo, hd, Nat.le_refl _, nofun⟩)

end

variable {m : Mdlw} {n : String} {c : Bool} {kind : Kind} {σ : Nat → St (m.chan D)} {α : Nat → Option (Act (m.chan D))}

theorem alive_on (h : Run (m.chan D) n c kind σ α) {i : Nat} (ha : PollAlive m σ α i) {j : Nat} (hj : i ≤ j) : (m.chan D).alive (σ j).ch = true := by
  induction hj with
  | refl => exact ha.running
  | step hm ih =>
    rename_i k
    show (m.chan D).alive (σ (k + 1)).ch = true
    rcases h.next k with ⟨_, e⟩ | ⟨a, h1, e⟩
    · rw [e]; exact ih
    · have hp := step_proj m.lawful (h.reach k) (fun e => ha.calm k hm (by rw [h1, e])) e
      have hst := e
      match a, hp with
      | .ch b, hp =>
        simp only [step] at hst
        split at hst
        · cases hst
        · rename_i ho; exact (m.lawful.other _ _ b (by simpa using ho) hp).2.2 ih
      | .fin, hp =>
        clear hst
        cases m with
        | basic d k =>
          change MemP.step d _ (.bm .emit) = some _ at hp
          simp only [MemP.step] at hp
          split at hp
          · cases hp
          split at hp
          · injection hp with hp
            show MemP.St.alive _ = true
            rw [← hp]
            exact ih
          · cases hp
        | concurrent d =>
          change CqP.step d _ (.cq .emit) = some _ at hp
          simp only [CqP.step] at hp
          split at hp
          · cases hp
          split at hp
          · injection hp with hp
            show CqP.St.alive _ = true
            rw [← hp]
            exact ih
          · cases hp
      | .reg _, hp | .once, hp | .rem _, hp | .take, hp | .call _, hp => exact hp ▸ ih

/-- The polling thread gets back to the queue again and again. -/
theorem polls_again (h : Run (m.chan D) n c kind σ α) {i : Nat} (ha : PollAlive m σ α i) (k : Nat) (hk : i ≤ k) :
    ∃ j, k ≤ j ∧ ∃ a, α j = some a ∧ ∃ b, proj a = some b ∧ m.polls b := by
  have hturn : ∀ k, i ≤ k → ∃ j, k ≤ j ∧ ∃ a, α j = some a ∧ m.turn a := fun k hk => ha.fair k fun j hj => alive_on h ha (Nat.le_trans hk hj)
  apply Classical.byContradiction
  intro hno
  have hno : ∀ j, k ≤ j → ∀ a, α j = some a → ∀ b, proj a = some b → ¬ m.polls b := fun j hj a h1 b h2 h3 => hno ⟨j, hj, a, h1, b, h2, h3⟩
  have hemit : m.polls (m.chan D).emit := by cases m <;> exact trivial
  have hfin : ∀ j, k ≤ j → α j ≠ some .fin := fun j hj e => hno j hj _ e _ rfl hemit
  -- a delivery begins
  obtain ⟨j, hj, hdj⟩ : ∃ j, k ≤ j ∧ (σ j).del.isSome := by
    obtain ⟨j, hj, a, h1, h2⟩ := hturn k hk
    rcases h.next j with ⟨e, _⟩ | ⟨a', h1', e⟩
    · rw [h1] at e; cases e
    · rw [h1] at h1'; cases h1'
      cases a with
      | ch b => exact absurd h2 (hno j hj _ h1 b rfl)
      | fin => exact absurd h1 (hfin j hj)
      | take =>
        refine ⟨j + 1, by omega, ?_⟩
        simp only [step] at e
        (repeat' split at e) <;> first | (cases e; done) | skip
        simp only [Option.some.injEq] at e
        rw [← e]; rfl
      | call ret =>
        refine ⟨j, hj, ?_⟩
        simp only [step] at e
        split at e
        · rename_i hd; rw [hd]; rfl
        · cases e
      | _ => exact absurd h2 id
  -- and never comes to an end
  have hstay : ∀ l, j ≤ l → (σ l).del.isSome := by
    intro l hl
    induction hl with
    | refl => exact hdj
    | step hm ih =>
      rename_i l
      show (σ (l + 1)).del.isSome
      rcases h.next l with ⟨_, e⟩ | ⟨a, h1, e⟩
      · rw [e]; exact ih
      · obtain ⟨⟨d, todo⟩, hd⟩ := Option.isSome_iff_exists.mp ih
        obtain ⟨_, t, ht, _⟩ := step_del m.lawful (h.reach l) (fun e => ha.calm l (by have := hm; simp only [Nat.le_eq] at this; omega) (by rw [h1, e])) e hd
          (fun e => hfin l (by have := hm; simp only [Nat.le_eq] at this; omega) (by rw [h1, e]))
        rw [ht]; rfl
  obtain ⟨_, _, hf⟩ := Fair.eventually (σ := σ) (α := α) m.turn (fun _ => False) (fun s => (s.del.map (·.2.length)).getD 0) j (fun l hl => hturn l (by omega)) (by
    intro l hl _
    obtain ⟨⟨d, todo⟩, hd⟩ := Option.isSome_iff_exists.mp (hstay l hl)
    rcases h.next l with ⟨hnone, e⟩ | ⟨a, h1, e⟩
    · rw [e]; exact ⟨Nat.le_refl _, fun a ha => by rw [hnone] at ha; cases ha⟩
    · obtain ⟨h2, t, ht, h3, h4⟩ := step_del m.lawful (h.reach l) (fun e => ha.calm l (by omega) (by rw [h1, e])) e hd (fun e => hfin l (by omega) (by rw [h1, e]))
      rw [ht, hd]
      refine ⟨h3, fun a' ha' htn => ?_⟩
      rw [h1] at ha'; cases ha'
      match a, htn with
      | .ch b, htn => exact absurd htn (hno l (by omega) _ h1 b rfl)
      | .fin, _ => exact absurd h1 (hfin l (by omega))
      | .take, _ => exact absurd rfl h2
      | .call true, _ => exact h4 rfl
      | .call false, _ => exact absurd h1 (ha.calm l (by omega)))
  exact hf

theorem proj_exec (h : Run (m.chan D) n c kind σ α) {i : Nat} (ha : PollAlive m σ α i) :
    Exec (m.chan D).step (fun j => (σ (i + j)).ch) (fun j => (α (i + j)).bind proj) := by
  intro j
  rcases h.next (i + j) with ⟨h1, h2⟩ | ⟨a, h1, h2⟩
  · simp only [h1, Option.bind_none, ← Nat.add_assoc]
    rw [h2]
  · have := step_proj m.lawful (h.reach _) (fun e => ha.calm (i + j) (by omega) (by rw [h1, e])) h2
    simp only [h1, Option.bind_some, ← Nat.add_assoc]
    cases hp : proj a with
    | none => rw [hp] at this; exact this
    | some b => rw [hp] at this; exact this

omit [DecidableEq D] in
theorem proj_throw (h : Run (m.chan D) n c kind σ α) (j : Nat) : (α j).bind proj ≠ some (m.chan D).throw := by
  intro e
  obtain ⟨a, h1, h2⟩ := Option.bind_eq_some_iff.mp e
  match a, h2 with
  | .ch b, h2 =>
    rcases h.next j with ⟨h3, _⟩ | ⟨a, h3, h4⟩
    · rw [h1] at h3; cases h3
    · rw [h1] at h3; cases h3
      simp only [proj, Option.some.injEq] at h2
      subst h2
      simp only [step] at h4
      rw [if_pos (by cases m <;> rfl)] at h4
      cases h4
  | .fin, h2 =>
    cases m <;> (simp only [proj, Option.some.injEq] at h2; cases h2)

theorem proj_fair (h : Run (m.chan D) n c kind σ α) {i : Nat} (ha : PollAlive m σ α i) (P : (m.chan D).σ → Prop) :
    FairTo P m.polls (fun j => (σ (i + j)).ch) (fun j => (α (i + j)).bind proj) := by
  intro k _
  obtain ⟨j, hj, a, h1, b, h2, h3⟩ := polls_again h ha (i + k) (by omega)
  refine ⟨j - i, by omega, b, ?_, h3⟩
  show (α (i + (j - i))).bind proj = some b
  rw [show i + (j - i) = j by omega, h1]
  exact h2

/-- The middleware delivers (C75, C77). -/
theorem Run.delivers (h : Run (m.chan D) n c kind σ α) {i : Nat} (ha : PollAlive m σ α i) :
    ∃ j, i ≤ j ∧ ((m.gone (σ j).ch).take (m.accepted (σ i).ch).length).map (·.1) = m.accepted (σ i).ch ∧
      (((m.gone (σ j).ch).take (m.accepted (σ i).ch).length).filter (·.2)).map (·.1) <+: m.emitted (σ j).ch := by
  have hreach := (h.reach i).ch
  have hexec := proj_exec h ha
  have hthrow := fun j => proj_throw h (i + j)
  have hfair := proj_fair h ha (fun s => (m.chan D).alive s = true)
  have hrun := alive_on h ha (Nat.le_refl i)
  cases m with
  | basic d k =>
    obtain ⟨j, _, h1, h2⟩ := MemP.C75_delivered (d := d) (n := k) (σ := fun j => (σ (i + j)).ch) (α := fun j => (α (i + j)).bind proj) (i := 0)
      ⟨ChReach.basic hreach, hexec⟩ ⟨hrun, fun j _ => hthrow j, hfair⟩
    exact ⟨i + j, by omega, h1, h2⟩
  | concurrent d =>
    have hpoll : ∀ (j : Nat) (b : Bool), (α j).bind proj = some (.cq (.poll b) : CqP.Act D) ↔ α j = some (.ch (.cq (.poll b) : CqP.Act D)) := by
      intro j b
      constructor
      · intro e
        obtain ⟨a, h1, h2⟩ := Option.bind_eq_some_iff.mp e
        match a, h2 with
        | .ch b', h2 =>
          simp only [proj] at h2
          rw [h1, Option.some.inj h2]
        | .fin, h2 => simp only [proj] at h2; cases h2
      · intro e; rw [e]; rfl
    have hhon := ha.honest
    obtain ⟨j, _, h1, h2⟩ := CqP.C77_delivered (d := d) (σ := fun j => (σ (i + j)).ch) (α := fun j => (α (i + j)).bind proj) (i := 0)
      ⟨ChReach.concurrent hreach, hexec, fun j => h.may (i + j)⟩ ⟨hrun, fun j _ => hthrow j, hfair, by
        intro k hk1 hk2
        obtain ⟨j, hj, hp⟩ := hhon (i + k)
          (fun j hj => by
            have := hk1 (j - i) (by omega)
            simp only [show i + (j - i) = j by omega] at this
            exact this)
          (fun l hl => by
            obtain ⟨j, hj, b, hb⟩ := hk2 (l - i) (by omega)
            exact ⟨i + j, by omega, b, (hpoll _ _).mp hb⟩)
        refine ⟨j - i, by omega, ?_⟩
        show (α (i + (j - i))).bind proj = _
        rw [show i + (j - i) = j by omega]
        exact (hpoll _ _).mpr hp⟩
    refine ⟨i + j, by omega, ?_, ?_⟩
    · simp only [Mdlw.gone, Mdlw.accepted]
      rw [← List.map_take, List.map_map]
      exact h1
    · simp only [Mdlw.gone, Mdlw.accepted, Mdlw.emitted]
      rw [← List.map_take, List.filter_map, List.map_map]
      exact h2

/-- **C81**, delivery: if the polling loop runs, no listener throws, its thread is scheduled again and again (and the external queue does not hide its events for ever),
then every event accepted up to time `i` leaves the queue, and a listener that stays registered has been called with all of them that were taken up after its
registration and that no publisher has discarded, in the order of acceptance. -/
theorem C81_delivered (h : Run (m.chan D) n c kind σ α) {i : Nat} (ha : PollAlive m σ α i) {h1 : List (Event D)} {l : String}
    (hreg : ∀ j, i ≤ j → ∃ h2, (σ j).hist = h1 ++ .reg n l :: h2 ∧ NoThrow h2 ∧ .rem n l ∉ h2) :
    ∃ j, i ≤ j ∧ ((m.gone (σ j).ch).take (m.accepted (σ i).ch).length).map (·.1) = m.accepted (σ i).ch ∧
      ((((m.gone (σ j).ch).take (m.accepted (σ i).ch).length).filter (·.2)).map (·.1)).drop (takenUp h1).length <+: gets (regs h1) (σ j).hist := by
  obtain ⟨j, hj, g1, g2⟩ := h.delivers ha
  refine ⟨j, hj, g1, ?_⟩
  obtain ⟨h2, e1, e2, e3⟩ := hreg j hj
  obtain ⟨r, f1, f2, f3⟩ := C81_named_listener_gets_all m (h.reach j) e1 e2 e3
  obtain ⟨a, ls, _, hi⟩ := (h.reach j).inv m.lawful
  have ht := hi.taken
  have hu : takenUp (σ j).hist = takenUp h1 ++ takenUp h2 := by rw [e1, takenUp_append]; rfl
  rw [hu, ← f1] at ht
  have hp : (m.emitted (σ j).ch).drop (takenUp h1).length <+: gets (regs h1) (σ j).hist := by
    rw [List.prefix_iff_eq_take]
    have hlen := congrArg List.length ht
    simp only [List.length_append] at hlen
    have hr : r.length ≤ (((σ j).del.map (·.1)).toList).length := by
      cases hd : (σ j).del with
      | none => rw [f3 hd]; simp
      | some x => simpa using f2
    have e4 : (m.emitted (σ j).ch) = (takenUp h1 ++ (gets (regs h1) (σ j).hist ++ r)).take (m.emitted (σ j).ch).length := by rw [ht]; simp
    conv_lhs => rw [e4]
    rw [List.drop_take, List.drop_left, List.length_drop, List.take_append_of_le_length (by omega)]
  exact List.IsPrefix.trans (List.IsPrefix.drop g2 _) hp

/-- **C81**, delivery in a blocking middleware: every event accepted up to time `i` and taken up after the registration reaches the listener. -/
theorem C81_blocking_delivered (hd : m.discards = false) (h : Run (m.chan D) n c kind σ α) {i : Nat} (ha : PollAlive m σ α i) {h1 : List (Event D)} {l : String}
    (hreg : ∀ j, i ≤ j → ∃ h2, (σ j).hist = h1 ++ .reg n l :: h2 ∧ NoThrow h2 ∧ .rem n l ∉ h2) :
    ∃ j, i ≤ j ∧ (m.accepted (σ i).ch).drop (takenUp h1).length <+: gets (regs h1) (σ j).hist := by
  obtain ⟨j, hj, g1, g2⟩ := C81_delivered h ha hreg
  refine ⟨j, hj, ?_⟩
  have hall : (m.gone (σ j).ch).filter (·.2) = m.gone (σ j).ch := by
    obtain ⟨f1, f2, _, _, f5⟩ := m.flow (h.reach j).ch
    have := f5 hd
    rw [f2, f1] at this
    have := List.append_cancel_right this
    simp only [Mdlw.passed] at this
    have hl := congrArg List.length this
    simp only [List.length_map] at hl
    exact List.filter_sublist.eq_of_length hl
  have : ((m.gone (σ j).ch).take (m.accepted (σ i).ch).length).filter (·.2) = (m.gone (σ j).ch).take (m.accepted (σ i).ch).length := by
    rw [List.filter_eq_self]
    intro x hx
    exact (List.filter_eq_self.mp hall) x (List.mem_of_mem_take hx)
  rw [this, g1] at g2
  exact g2

/-! ### Concrete cases -/

section
variable {C : Chan D} (n : String) (c : Bool) (as : List (Act C)) (z : Act C) (s0 : St C)

/-- The states of a run, with the same action again and again after the end of the list. -/
def follow : Nat → St C
  | 0 => s0
  | i + 1 => match step n c (follow i) (as.getD i z) with
    | some s => s
    | none => follow i

omit [DecidableEq D] in
theorem late {i : Nat} (hi : as.length ≤ i) : as.getD i z = z := by
  rw [List.getD_eq_getElem?_getD, List.getElem?_eq_none hi]; rfl

omit [DecidableEq D] in
theorem follow_end (hz : step n c (follow n c as z s0 as.length) z = some (follow n c as z s0 as.length)) (i : Nat) :
    follow n c as z s0 (as.length + i) = follow n c as z s0 as.length := by
  induction i with
  | zero => rfl
  | succ i ih =>
    show follow n c as z s0 (as.length + i + 1) = _
    rw [follow, ih, late as z (Nat.le_add_right _ _)]
    simp only [hz]

omit [DecidableEq D] in
theorem follow_run {kind : Kind} {use : C.Act → Bool} {P : C.σ → Prop} (hP : ∀ s, P s → C.may s)
    (hstep : ∀ s s' a, P s → (use a ∨ C.own a ∨ a = C.emit ∨ a = C.throw) → C.step s a = some s' → P s')
    (h0 : Reach n c kind s0) (hp : P s0.ch) (hz : step n c (follow n c as z s0 as.length) z = some (follow n c as z s0 as.length))
    (hs : ∀ i, i < as.length → (step n c (follow n c as z s0 i) (as.getD i z)).isSome)
    (hok : ∀ i, i ≤ as.length → okB use (follow n c as z s0 i) (as.getD i z) = true) :
    Run C n c kind (follow n c as z s0) (fun i => some (as.getD i z)) := by
  have hexec : ∀ i, step n c (follow n c as z s0 i) (as.getD i z) = some (follow n c as z s0 (i + 1)) := by
    intro i
    by_cases hi : i < as.length
    · obtain ⟨s, h⟩ := Option.isSome_iff_exists.mp (hs i hi)
      rw [h]
      show _ = some (match step n c (follow n c as z s0 i) (as.getD i z) with | some s => s | none => _)
      rw [h]
    · obtain ⟨k, rfl⟩ : ∃ k, i = as.length + k := ⟨i - as.length, by omega⟩
      show _ = some (follow n c as z s0 (as.length + (k + 1)))
      rw [follow_end n c as z s0 hz, follow_end n c as z s0 hz, late as z (Nat.le_add_right _ _)]
      exact hz
  have hok' : ∀ i, okB use (follow n c as z s0 i) (as.getD i z) = true := by
    intro i
    by_cases hi : i ≤ as.length
    · exact hok i hi
    · obtain ⟨k, rfl⟩ : ∃ k, i = as.length + k := ⟨i - as.length, by omega⟩
      rw [follow_end n c as z s0 hz, late as z (Nat.le_add_right _ _)]
      have := hok as.length (Nat.le_refl _)
      rwa [late as z (Nat.le_refl _)] at this
  have hPi : ∀ i, P (follow n c as z s0 i).ch := by
    intro i
    induction i with
    | zero => exact hp
    | succ i ih =>
      have hs1 := hexec i
      have hok1 := hok' i
      generalize as.getD i z = x at hs1 hok1
      generalize follow n c as z s0 (i + 1) = s1 at hs1 ⊢
      cases x <;> simp only [MemD.step, thrown] at hs1 <;> (repeat' split at hs1) <;>
        first
        | (cases hs1; done)
        | (cases hs1; exact ih)
        | (obtain ⟨ch, hc, rfl⟩ := Option.map_eq_some_iff.mp hs1; first | exact hstep _ _ _ ih (Or.inl hok1) hc | exact hstep _ _ _ ih (by simp) hc)
  exact ⟨h0, hexec, fun i a ha => by cases ha; exact okB_ok (hP _ (hPi i)) (hok' i), fun i => hP _ (hPi i)⟩

end

def liveB : List (Act (basic Nat false 2)) := [.reg "l0", .ch (.bm (.publish 1 10 0)), .ch (.bm (.publish 2 11 0)), .ch (.bm (.poll 1 0)), .take, .call true, .fin,
  .ch (.bm (.poll 1 0)), .take, .call true, .fin]

def liveC : List (Act (concurrent Nat false)) := [.reg "l0", .ch (.cq (.publish 1 10)), .ch (.cq (.enq 1 true)), .ch (.cq (.poll true)), .take, .call true, .fin]

/-- The poller asks an empty queue without waiting: nothing changes. -/
theorem idleB (s : MemP.St Nat) (h : s.alive = true ∧ s.bm.hand = [] ∧ s.bm.sq.q = [] ∧ s.bm.sq.wne = [] ∧ s.bm.sq.kne = [] ∧ s.bm.sq.wnf = [] ∧ s.bm.sq.knf = []) :
    MemP.step false s (.bm (.poll 0 0)) = some s := by
  obtain ⟨⟨⟨q, mx, wne, kne, wnf, knf⟩, dd, pd, hd, em⟩, al, cm, lf⟩ := s
  obtain ⟨rfl, rfl, rfl, rfl, rfl, rfl, rfl⟩ := h
  simp [MemP.step, MemP.byPoller, BM.step, SQ.step, SQ.busy, SQ.bodyTimedPop, BM.absorb, SQ.putIn, MemP.outs, SQ.Ev.ins]

def isB (s : MemP.St Nat) : Bool := s.alive && s.bm.hand.isEmpty && s.bm.sq.q.isEmpty && s.bm.sq.wne.isEmpty && s.bm.sq.kne.isEmpty && s.bm.sq.wnf.isEmpty && s.bm.sq.knf.isEmpty

theorem isB_idle {s : MemP.St Nat} (h : isB s = true) : MemP.step false s (.bm (.poll 0 0)) = some s := by
  simp only [isB, Bool.and_eq_true, List.isEmpty_iff] at h
  exact idleB s (by tauto)

theorem ch_stutter {C : Chan Nat} {n : String} {c : Bool} {s : St C} {a : C.Act} (ho : C.own a = false) (h : C.step s.ch a = some s.ch) : step n c s (.ch a) = some s := by
  simp only [step, ho, h]; rfl

theorem calm_hist {h2 : List (Event Nat)} (h : (h2.all fun | .call _ _ b => b | .rem .. => false | _ => true) = true) : NoThrow h2 ∧ .rem "e" "l0" ∉ h2 := by
  rw [List.all_eq_true] at h
  exact ⟨fun no m hm => by simpa using h _ hm, fun hm => by simpa using h _ hm⟩

/-- The history begins with a registration and contains no exception and no removal. -/
def calmB : List (Event Nat) → Bool
  | .reg n l :: h2 => n == "e" && l == "l0" && h2.all fun | .call _ _ b => b | .rem .. => false | _ => true
  | _ => false

theorem calmB_calm {h : List (Event Nat)} (hh : calmB h = true) : ∃ h2, h = [] ++ .reg "e" "l0" :: h2 ∧ NoThrow h2 ∧ .rem "e" "l0" ∉ h2 := by
  match h, hh with
  | .reg n l :: h2, hh =>
    simp only [calmB, Bool.and_eq_true, beq_iff_eq] at hh
    exact ⟨h2, by rw [hh.1.1, hh.1.2]; rfl, calm_hist hh.2⟩

theorem upto {P : Nat → Prop} (N : Nat) [DecidablePred P] (h : (List.range N).all (fun i => decide (P i)) = true) (i : Nat) (hi : i < N) : P i := by
  rw [List.all_eq_true] at h
  simpa using h i (List.mem_range.mpr hi)

def zB : Act (basic Nat false 2) := .ch (.bm (.poll 0 0))

def σB : Nat → St (basic Nat false 2) := follow "e" true liveB zB (St.init _ .safe)

theorem σB_end : step "e" true (σB 11) zB = some (σB 11) := by
  have : isB (σB 11).ch = true := by decide +kernel
  exact ch_stutter rfl (isB_idle this)

/-- The hypotheses of the theorems on delivery are met by an execution of the basic middleware, with two events accepted at time 3; the poller goes on asking the
empty queue. -/
theorem C81_example_delivered_basic : ∃ (σ : Nat → St ((Mdlw.basic false 2).chan Nat)) (α : Nat → Option (Act ((Mdlw.basic false 2).chan Nat))),
    Run ((Mdlw.basic false 2).chan Nat) "e" true .safe σ α ∧ PollAlive (.basic false 2) σ α 3 ∧
    (∀ j, 3 ≤ j → ∃ h2, (σ j).hist = [] ++ .reg "e" "l0" :: h2 ∧ NoThrow h2 ∧ .rem "e" "l0" ∉ h2) ∧ (Mdlw.basic false 2).accepted (σ 3).ch = [10, 11] ∧
    gets 0 (σ 3).hist = [] ∧ gets 0 (σ 11).hist = [10, 11] := by
  have hend : ∀ k, σB (11 + k) = σB 11 := follow_end "e" true liveB zB (St.init _ .safe) σB_end
  refine ⟨σB, fun i => some (liveB.getD i zB),
    follow_run "e" true liveB zB (St.init _ .safe) (use := fun _ => true) (P := fun _ => True) (fun _ _ => trivial) (fun _ _ _ _ _ _ => trivial) .init trivial σB_end ?_ ?_,
    ⟨?_, ?_, ?_, trivial⟩, ?_, ?_, ?_, ?_⟩
  · exact upto 11 (by decide +kernel)
  · exact fun i hi => upto (P := fun i => okB (fun _ => true) (follow "e" true liveB zB (St.init _ .safe) i) (liveB.getD i zB) = true) 12 (by decide +kernel) i (Nat.lt_succ_of_le hi)
  · show MemP.St.alive (σB 3).ch = true
    decide +kernel
  · intro j _
    by_cases h : j < 11
    · have := upto (P := fun i => (match liveB.getD i zB with | .call false => false | _ => true) = true) 11 (by decide +kernel) j h
      intro e
      rw [Option.some.inj e] at this
      cases this
    · rw [late liveB zB (by show 11 ≤ j; omega)]; nofun
  · intro i _
    exact ⟨11 + i, by omega, zB, congrArg some (late liveB zB (Nat.le_add_right 11 i)), trivial⟩
  · intro j hj
    apply calmB_calm
    by_cases h : j < 11
    · exact upto (P := fun i => 3 ≤ i → calmB (σB i).hist = true) 11 (by decide +kernel) j h hj
    · obtain ⟨k, rfl⟩ : ∃ k, j = 11 + k := ⟨j - 11, by omega⟩
      rw [hend k]
      decide +kernel
  · show MemP.St.came (σB 3).ch = [10, 11]
    decide +kernel
  · decide +kernel
  · decide +kernel

def zC : Act (concurrent Nat false) := .ch (.cq (.poll false))

def σC : Nat → St (concurrent Nat false) := follow "e" true liveC zC (St.init _ .safe)

theorem idleC {s : CqP.St Nat} (h : (s.alive && s.cq.hand.isEmpty) = true) : CqP.step false s (.cq (.poll false)) = some s := by
  obtain ⟨⟨q, pc, hd, em, st, pb, tk, ac⟩, al⟩ := s
  simp only [Bool.and_eq_true, List.isEmpty_iff] at h
  obtain ⟨rfl, rfl⟩ := h
  simp [CqP.step, CqP.byPoller, CQ.step]

theorem σC_end : step "e" true (σC 7) zC = some (σC 7) := by
  have h1 : (CqP.St.alive (σC 7).ch && (CqP.St.cq (σC 7).ch).hand.isEmpty) = true := by decide +kernel
  exact ch_stutter rfl (idleC h1)

theorem only1_use {d : Bool} {s s' : CqP.St Nat} {a : CqP.Act Nat} (h : Only1 s)
    (ha : only1 a = true ∨ (concurrent Nat d).own a = true ∨ a = (concurrent Nat d).emit ∨ a = (concurrent Nat d).throw) (hs : CqP.step d s a = some s') : Only1 s' := by
  refine only1_step h ?_ hs
  rcases ha with ha | ha | rfl | rfl
  · exact ha
  · match a with
    | .throw => rfl
    | .restart => rfl
    | .cq (.publish ..) => cases ha
    | .cq (.enq ..) | .cq (.rem ..) | .cq (.account ..) | .cq (.poll _) | .cq .emit => rfl
  · rfl
  · rfl

/-- And by one of the concurrent middleware. -/
theorem C81_example_delivered_concurrent : ∃ (σ : Nat → St ((Mdlw.concurrent false).chan Nat)) (α : Nat → Option (Act ((Mdlw.concurrent false).chan Nat))),
    Run ((Mdlw.concurrent false).chan Nat) "e" true .safe σ α ∧ PollAlive (.concurrent false) σ α 3 ∧
    (∀ j, 3 ≤ j → ∃ h2, (σ j).hist = [] ++ .reg "e" "l0" :: h2 ∧ NoThrow h2 ∧ .rem "e" "l0" ∉ h2) ∧ (Mdlw.concurrent false).accepted (σ 3).ch = [10] ∧
    gets 0 (σ 3).hist = [] ∧ gets 0 (σ 7).hist = [10] := by
  have hend : ∀ k, σC (7 + k) = σC 7 := follow_end "e" true liveC zC (St.init _ .safe) σC_end
  refine ⟨σC, fun i => some (liveC.getD i zC),
    follow_run "e" true liveC zC (St.init _ .safe) (use := only1) (P := Only1) (fun s h => CQ.C63_one_publisher_no_race (t := 1) h)
      (fun s s' a h ha hs => only1_use h ha hs) .init (fun _ _ => rfl) σC_end ?_ ?_,
    ⟨?_, ?_, ?_, ?_⟩, ?_, ?_, ?_, ?_⟩
  · exact upto 7 (by decide +kernel)
  · exact fun i hi => upto (P := fun i => okB only1 (follow "e" true liveC zC (St.init _ .safe) i) (liveC.getD i zC) = true) 8 (by decide +kernel) i (Nat.lt_succ_of_le hi)
  · show CqP.St.alive (σC 3).ch = true
    decide +kernel
  · intro j _
    by_cases h : j < 7
    · have := upto (P := fun i => (match liveC.getD i zC with | .call false => false | _ => true) = true) 7 (by decide +kernel) j h
      intro e
      rw [Option.some.inj e] at this
      cases this
    · rw [late liveC zC (by show 7 ≤ j; omega)]; nofun
  · intro i _
    exact ⟨7 + i, by omega, zC, congrArg some (late liveC zC (Nat.le_add_right 7 i)), trivial⟩
  · intro k hk _
    have h1 : (CqP.St.cq (σC 7).ch).q = [] := by
      have : (CqP.St.cq (σC 7).ch).q.isEmpty = true := by decide +kernel
      simpa using this
    exact absurd (by rw [hend k]; exact h1) (hk (7 + k) (by omega))
  · intro j hj
    apply calmB_calm
    by_cases h : j < 7
    · exact upto (P := fun i => 3 ≤ i → calmB (σC i).hist = true) 7 (by decide +kernel) j h hj
    · obtain ⟨k, rfl⟩ : ∃ k, j = 7 + k := ⟨j - 7, by omega⟩
      rw [hend k]
      decide +kernel
  · show (CqP.St.cq (σC 3).ch).published = [10]
    decide +kernel
  · decide +kernel
  · decide +kernel

end Verif.MemD
