import Verif.Spec.MuxDispatchLive
import Verif.Props.MuxDispatch
import Verif.Props.MuxLive
import Verif.Props.MemDispatchLive

/-! C87, progress: every listener of a subscriber of the data multiplexer is kept up to date, in every execution in which the thread of the subscriber is not forgotten. -/

namespace Verif.MuxD
open Verif Verif.Disr ElD MemD Verif.Fair

variable {T : Type} {shared : Bool} {k c : Nat} {v : T} {s0 : Mux.St T} {n : String} {ct : Bool}

/-- What the multiplexer sees of a step. -/
def proj : MemD.Act (chan shared k c s0) → Option (Mux.Act T)
  | .ch (.mux a) => some a
  | .ch .skip => some (.finish c)
  | .fin => some (.finish c)
  | .call false => some (.throw c)
  | _ => none

theorem step_proj (h0 : Created shared k v c s0) {s s' : Sub shared k c s0} (h : Reach n ct .safe s) {a : MemD.Act (chan shared k c s0)} (hs : MemD.step n ct s a = some s') :
    match proj a with
    | none => mux s' = mux s
    | some b => Mux.step shared k (mux s) b = some (mux s') ∧ Mux.OkAct (mux s) b := by
  match a with
  | .call false =>
    show Mux.step shared k (mux s) (.throw c) = some (mux s') ∧ True
    refine ⟨?_, trivial⟩
    simp only [MemD.step, MemD.thrown] at hs
    split at hs
    · simp only [if_true] at hs
      obtain ⟨ch, hc, rfl⟩ := Option.map_eq_some_iff.mp hs
      change chStep shared k c (mux s) .throw = some ch at hc
      simp only [chStep] at hc
      split at hc
      · exact hc
      · cases hc
    · cases hs
  | .call true => exact MemD.step_proj h0.lawful h (fun e => by cases e) hs
  | .take => exact MemD.step_proj h0.lawful h (fun e => by cases e) hs
  | .reg _ => exact MemD.step_proj h0.lawful h (fun e => by cases e) hs
  | .once => exact MemD.step_proj h0.lawful h (fun e => by cases e) hs
  | .rem _ => exact MemD.step_proj h0.lawful h (fun e => by cases e) hs
  | .fin =>
    have := MemD.step_proj h0.lawful h (fun e => by cases e) hs
    change chStep shared k c (mux s) .emit = some (mux s') at this
    refine ⟨?_, trivial⟩
    simp only [chStep] at this
    split at this
    · exact this
    · cases this
  | .ch .emit => cases hs
  | .ch .throw => cases hs
  | .ch .skip =>
    have := MemD.step_proj h0.lawful h (fun e => by cases e) hs
    change chStep shared k c (mux s) .skip = some (mux s') at this
    refine ⟨?_, trivial⟩
    simp only [chStep] at this
    (repeat' split at this) <;> first | (cases this; done) | exact this
  | .ch (.mux a) =>
    have := MemD.step_proj h0.lawful h (fun e => by cases e) hs
    change others shared k c (mux s) a = some (mux s') at this
    obtain ⟨h1, _, _, h2, h3⟩ := others_step this
    exact ⟨h1, h3⟩

variable {σ : Nat → Sub shared k c s0} {α : Nat → Option (MemD.Act (chan shared k c s0))}

/-- An execution of the subscriber with its listeners is one of the multiplexer. -/
theorem run_proj (hk : k ≤ 30) (h0 : Created shared k v c s0) (h : MemD.Run (chan shared k c s0) n ct .safe σ α) :
    Mux.Run shared k v (fun i => mux (σ i)) (fun i => (α i).bind proj) where
  hk := hk
  start := (ch_facts hk h0 (s := mux (σ 0)) (h.reach 0).ch).1
  exec i := by
    rcases h.next i with ⟨h1, h2⟩ | ⟨a, h1, h2⟩
    · simp only [h1, Option.bind_none]
      rw [h2]
    · have := step_proj h0 (h.reach i) h2
      simp only [h1, Option.bind_some]
      cases hp : proj a with
      | none => rw [hp] at this; exact this
      | some b => rw [hp] at this; exact this.1
  ok i b hb := by
    obtain ⟨a, h1, h2⟩ := Option.bind_eq_some_iff.mp hb
    rcases h.next i with ⟨h3, _⟩ | ⟨a', h3, h4⟩
    · rw [h1] at h3; cases h3
    · rw [h1] at h3; cases h3
      have := step_proj h0 (h.reach i) h4
      rw [h2] at this
      exact this.2

/-- The thread gets back to the ring again and again. -/
theorem turns_again (h0 : Created shared k v c s0) (h : MemD.Run (chan shared k c s0) n ct .safe σ α) {i : Nat}
    (hf : ∀ k, i ≤ k → ∃ j, k ≤ j ∧ ∃ a, α j = some a ∧ Turn c a) : ∃ j, i ≤ j ∧ ∃ a, (α j).bind proj = some a ∧ Mux.Turn c a := by
  apply Classical.byContradiction
  intro hno
  have hno : ∀ j, i ≤ j → ∀ a, α j = some a → ∀ b, proj a = some b → ¬ Mux.Turn c b := fun j hj a h1 b h2 h3 => hno ⟨j, hj, b, by rw [h1]; exact h2, h3⟩
  have hfin : ∀ j, i ≤ j → α j ≠ some .fin := fun j hj e => hno j hj _ e _ rfl (.inr (.inr (.inl rfl)))
  have hcalm : ∀ j, i ≤ j → α j ≠ some (.call false) := fun j hj e => hno j hj _ e _ rfl (.inr (.inr (.inr rfl)))
  -- turns that are left
  have hturn : ∀ k, i ≤ k → ∃ j, k ≤ j ∧ (α j = some .take ∨ α j = some (.call true)) := by
    intro k hk
    obtain ⟨j, hj, a, h1, h2⟩ := hf k hk
    refine ⟨j, hj, ?_⟩
    match a, h2 with
    | .ch (.mux (.look d)), h2 => exact absurd (.inl (by rw [show d = c from h2])) (hno j (by omega) _ h1 _ rfl)
    | .ch (.mux (.advance d)), h2 => exact absurd (.inr (.inl (by rw [show d = c from h2]))) (hno j (by omega) _ h1 _ rfl)
    | .ch .skip, _ => exact absurd (.inr (.inr (.inl rfl))) (hno j (by omega) _ h1 _ rfl)
    | .take, _ => exact .inl h1
    | .call true, _ => exact .inr h1
    | .call false, _ => exact absurd h1 (hcalm j (by omega))
    | .fin, _ => exact absurd h1 (hfin j (by omega))
  -- a delivery begins
  obtain ⟨j, hj, hdj⟩ : ∃ j, i ≤ j ∧ (σ j).del.isSome := by
    obtain ⟨j, hj, h1⟩ := hturn i (Nat.le_refl _)
    rcases h.next j with ⟨e, _⟩ | ⟨a', h1', e⟩
    · rw [e] at h1; rcases h1 with h1 | h1 <;> cases h1
    · rw [h1'] at h1
      rcases h1 with h1 | h1
      · cases h1
        refine ⟨j + 1, by omega, ?_⟩
        simp only [MemD.step] at e
        (repeat' split at e) <;> first | (cases e; done) | skip
        simp only [Option.some.injEq] at e
        rw [← e]; rfl
      · cases h1
        refine ⟨j, hj, ?_⟩
        simp only [MemD.step] at e
        split at e
        · rename_i hd; rw [hd]; rfl
        · cases e
  -- and never comes to an end
  have hstay : ∀ l, j ≤ l → (σ l).del.isSome := by
    intro l hl
    induction hl with
    | refl => exact hdj
    | step hm ih =>
      rename_i l
      show (σ (l + 1)).del.isSome
      have hil : i ≤ l := by have := hm; simp only [Nat.le_eq] at this; omega
      rcases h.next l with ⟨_, e⟩ | ⟨a, h1, e⟩
      · rw [e]; exact ih
      · obtain ⟨⟨d, todo⟩, hd⟩ := Option.isSome_iff_exists.mp ih
        obtain ⟨_, t, ht, _⟩ := step_del h0.lawful (h.reach l) (fun e => hcalm l hil (by rw [h1, e])) e hd (fun e => hfin l hil (by rw [h1, e]))
        rw [ht]; rfl
  obtain ⟨_, _, hf⟩ := Fair.eventually (σ := σ) (α := α) (fun a => a = .take ∨ a = .call true) (fun _ => False) (fun s => (s.del.map (·.2.length)).getD 0) j
    (fun l hl => by
      obtain ⟨j, hj, h1⟩ := hturn l (by omega)
      rcases h1 with h1 | h1
      · exact ⟨j, hj, _, h1, .inl rfl⟩
      · exact ⟨j, hj, _, h1, .inr rfl⟩) (by
    intro l hl _
    obtain ⟨⟨d, todo⟩, hd⟩ := Option.isSome_iff_exists.mp (hstay l hl)
    rcases h.next l with ⟨hnone, e⟩ | ⟨a, h1, e⟩
    · rw [e]; exact ⟨Nat.le_refl _, fun a ha => by rw [hnone] at ha; cases ha⟩
    · obtain ⟨h2, t, ht, h3, h4⟩ := step_del h0.lawful (h.reach l) (fun e => hcalm l (by omega) (by rw [h1, e])) e hd (fun e => hfin l (by omega) (by rw [h1, e]))
      rw [ht, hd]
      refine ⟨h3, fun a' ha' htn => ?_⟩
      rw [h1] at ha'; cases ha'
      rcases htn with rfl | rfl
      · exact absurd rfl h2
      · exact h4 rfl)
  exact hf

theorem alive_proj (hk : k ≤ 30) (h0 : Created shared k v c s0) (h : MemD.Run (chan shared k c s0) n ct .safe σ α) {i : Nat} (ha : Alive σ α i) :
    Mux.Alive (fun i => mux (σ i)) (fun i => (α i).bind proj) c i where
  member := (ch_facts hk h0 (s := mux (σ i)) (h.reach i).ch).2.1
  running := ha.running
  stays j hj e := by
    obtain ⟨a, h1, h2⟩ := Option.bind_eq_some_iff.mp e
    match a, h2 with
    | .ch (.mux _), h2 => cases h2; exact ha.stays j hj h1
    | .ch .skip, h2 => cases h2
    | .ch .emit, h2 => cases h2
    | .ch .throw, h2 => cases h2
    | .fin, h2 => cases h2
    | .call false, h2 => cases h2
    | .call true, h2 => cases h2
  fair i hb := turns_again h0 h fun k hk => ha.fair k fun j hj => hb j (Nat.le_trans hk hj)

/-- The subscriber comes to a point where it waits, all listeners have returned, and the last event taken up is `x` or a newer one. -/
theorem comes_to (hk : k ≤ 30) (h0 : Created shared k v c s0) (h : MemD.Run (chan shared k c s0) n ct .safe σ α) {i : Nat} (ha : Alive σ α i) {x : Int}
    (hb : s0.ring.cursor < x) (hx : x ≤ (mux (σ i)).ring.cursor) :
    ∃ j, i ≤ j ∧ (σ j).del = none ∧ ∃ d, (takenUp (σ j).hist).getLast? = some d ∧ x ≤ d.1 := by
  have hr := run_proj hk h0 h
  have hal := alive_proj hk h0 h ha
  obtain ⟨j, hj, q1, nx, q2⟩ := hal.catches_up hr hx
  have q2 : (mux (σ j)).ring.cp c = .wait nx := q2
  have q1 : x ≤ (mux (σ j)).ring.seq c := q1
  obtain ⟨g1, g2, g3⟩ := ch_facts hk h0 (s := mux (σ j)) (h.reach j).ch
  obtain ⟨r, b1, b2, b3, b4⟩ := C87_taken_up h0 (h.reach j)
  rw [b4 nx q2, List.append_nil] at b1
  refine ⟨j, hj, ?_, ?_⟩
  · cases hd : (σ j).del with
    | none => rfl
    | some p =>
      obtain ⟨a, ls, _, hi⟩ := (h.reach j).inv h0.lawful
      have hh : hand c (mux (σ j)) = some p.1 := (hi.hand p.1 p.2 hd).1
      obtain ⟨y, e, l, h1, h2, _⟩ := hand_some hh
      rw [q2] at h1; cases h1
  · rcases Mux.C28_batch_ends_with_newest hk g1 g2 (.inl ⟨nx, q2⟩) with ⟨e1, e2⟩ | ⟨_, o, t, l, e⟩
    · exfalso
      obtain ⟨_, _, h2, _⟩ := Mux.C28_accounting hk g1 g2
      obtain ⟨n, f1, f2, f3, f4⟩ := SRing.C25_single_in_order_exactly_once hk g1.ring g2
      rw [e1, e2] at h2
      have := congrArg List.length (f1.symm.trans h2)
      simp at this
      omega
    · refine ⟨((mux (σ j)).ring.seq c, o), ?_, q1⟩
      rw [b1]
      simp [newest, e]

/-- **C87**, progress, exceptions or not: the thread of the subscriber runs and is not forgotten; then for every event published since the subscriber was created that event or a newer
one is taken up in the end, for the listeners registered at that time. -/
theorem C87_taken_up_in_the_end (hk : k ≤ 30) (h0 : Created shared k v c s0) (h : MemD.Run (chan shared k c s0) n ct .safe σ α) {i : Nat} (ha : Alive σ α i) {x : Int}
    (hb : s0.ring.cursor < x) (hx : x ≤ (mux (σ i)).ring.cursor) : ∃ j, i ≤ j ∧ ∃ d ∈ takenUp (σ j).hist, x ≤ d.1 := by
  obtain ⟨j, hj, _, d, h1, h2⟩ := comes_to hk h0 h ha hb hx
  exact ⟨j, hj, d, List.mem_of_getLast? h1, h2⟩

/-- **C87**, progress: a listener, registered at time `i0` (before: history `h1`), that is not removed, and no listener throws: whatever the publisher, the other subscribers and the users of
this one do, for every event published after the registration, in the end the last event the listener has been called with is that event or a newer one. -/
theorem C87_kept_up_to_date (hk : k ≤ 30) (h0 : Created shared k v c s0) (h : MemD.Run (chan shared k c s0) n ct .safe σ α) {i0 i : Nat} (ha : Alive σ α i) {l : String}
    (hreg : ∀ j, i ≤ j → ∃ h2, (σ j).hist = (σ i0).hist ++ .reg n l :: h2 ∧ NoThrow h2 ∧ .rem n l ∉ h2) {x : Int}
    (hb : (mux (σ i0)).ring.cursor < x) (hx : x ≤ (mux (σ i)).ring.cursor) :
    ∃ j, i ≤ j ∧ ∃ d, (gets (regs (σ i0).hist) (σ j).hist).getLast? = some d ∧ x ≤ d.1 := by
  obtain ⟨f1, f2, f3⟩ := ch_facts hk h0 (s := mux (σ i0)) (h.reach i0).ch
  obtain ⟨m, m1, m2, m3, _⟩ := SRing.C25_single_in_order_exactly_once hk f1.ring f2
  have hbase := (f1.ring.inv hk).seq_le c f2
  obtain ⟨j, hj, hd, d, h1, h2⟩ := comes_to hk h0 h ha (x := x) (by omega) hx
  refine ⟨j, hj, d, ?_, h2⟩
  obtain ⟨h', e1, e2, e3⟩ := hreg j hj
  obtain ⟨r', c1, _, c3⟩ := C87_named_listener_gets_all h0 (h.reach j) e1 e2 e3
  rw [c3 hd, List.append_nil] at c1
  rw [c1]
  rw [e1, takenUp_append, show takenUp (Ev.reg n l :: h') = takenUp h' from rfl, List.getLast?_append] at h1
  match hl : (takenUp h').getLast? with
  | some d' => rw [hl] at h1; simpa using h1
  | none =>
    exfalso
    rw [hl] at h1
    simp only [Option.none_or] at h1
    have := (newest_sorted hk f1 f2).2 _ ((taken_prefix h0 (h.reach i0)).subset (List.mem_of_getLast? h1))
    omega

/-- **C87**, progress: and when the publisher stops publishing, the last call of every such listener is, in the end, with the last event published. -/
theorem C87_last_event_reaches_listener (hk : k ≤ 30) (h0 : Created shared k v c s0) (h : MemD.Run (chan shared k c s0) n ct .safe σ α) {i0 i : Nat} (ha : Alive σ α i) {l : String}
    (hreg : ∀ j, i ≤ j → ∃ h2, (σ j).hist = (σ i0).hist ++ .reg n l :: h2 ∧ NoThrow h2 ∧ .rem n l ∉ h2)
    (hnew : (mux (σ i0)).ring.cursor < (mux (σ i)).ring.cursor) (hlast : ∀ j, i ≤ j → (mux (σ j)).ring.cursor = (mux (σ i)).ring.cursor) :
    ∃ j, i ≤ j ∧ ∃ o, (gets (regs (σ i0).hist) (σ j).hist).getLast? = some ((mux (σ i)).ring.cursor, o) := by
  obtain ⟨j, hj, d, h1, h2⟩ := C87_kept_up_to_date hk h0 h ha hreg hnew (Int.le_refl _)
  refine ⟨j, hj, d.2, ?_⟩
  obtain ⟨h', e1, _, _⟩ := hreg j hj
  have := ((C87_in_order hk h0 (h.reach j) (.inl ⟨l, rfl⟩) e1).2 d (List.mem_of_getLast? h1)).2
  rw [h1, show (mux (σ i)).ring.cursor = d.1 by have := hlast j hj; omega]

/-! ### A concrete case -/

/-- The thread starts, a listener is registered, two events are published, the second is emitted; then the thread looks for more for ever. -/
def lvActs : List (MemD.Act (chan false 2 0 ex0)) := [.ch (.mux (.run 0)), .reg "l0"] ++ exPub 10 ++ exPub 11 ++ exRead 1 1

def lvz : MemD.Act (chan false 2 0 ex0) := .ch (.mux (.look 0))

def lv : Nat → Sub false 2 0 ex0 := follow "m" true lvActs lvz (St.init _ .safe)

theorem lv_obs : (mux (lv 16)).ring.cp 0 = .wait 2 ∧ (mux (lv 16)).ring.cursor = 1 := by decide +kernel

theorem idle_look {s : Mux.St T} {nx : Int} (h1 : s.ring.cp c = .wait nx) (h2 : s.ring.cursor < nx) : chStep shared k c s (.mux (.look c)) = some s := by
  simp [chStep, others, Mux.step, Mux.lift, SRing.step, h1, h2]

theorem look_stutter {s : Sub shared k c s0} (h : chStep shared k c (mux s) (.mux (.look c)) = some (mux s)) : MemD.step n ct s (.ch (.mux (.look c))) = some s := by
  have : MemD.step n ct s (.ch (.mux (.look c))) = (chStep shared k c (mux s) (.mux (.look c))).map fun ch => { s with ch := ch } := rfl
  rw [this, h]; rfl

theorem lv_end : MemD.step "m" true (lv 16) lvz = some (lv 16) :=
  look_stutter (idle_look lv_obs.1 (by rw [lv_obs.2]; decide))

theorem lv_tail (d : Nat) : lv (16 + d) = lv 16 := follow_end "m" true lvActs lvz (St.init _ .safe) lv_end d

theorem lv_run : MemD.Run (chan false 2 0 ex0) "m" true .safe lv (fun i => some (lvActs.getD i lvz)) := by
  refine follow_run "m" true lvActs lvz (St.init _ .safe) (use := fun _ => true) (P := fun _ => True) (fun _ _ => trivial) (fun _ _ _ _ _ _ => trivial) .init trivial lv_end ?_ ?_
  · exact upto 16 (by decide +kernel)
  · exact fun i hi => upto (P := fun i => okB (fun _ => true) (follow "m" true lvActs lvz (St.init _ .safe) i) (lvActs.getD i lvz) = true) 17 (by decide +kernel) i (Nat.lt_succ_of_le hi)

def calm0 : List (Event Data) → Bool
  | .reg n l :: h2 => n == "m" && l == "l0" && h2.all fun | .call _ _ b => b | .rem .. => false | _ => true
  | _ => false

theorem calm0_calm {h : List (Event Data)} (hh : calm0 h = true) : ∃ h2, h = [] ++ .reg "m" "l0" :: h2 ∧ NoThrow h2 ∧ .rem "m" "l0" ∉ h2 := by
  match h, hh with
  | .reg n l :: h2, hh =>
    simp only [calm0, Bool.and_eq_true, beq_iff_eq] at hh
    refine ⟨h2, by rw [hh.1.1, hh.1.2]; rfl, fun no m hm => ?_, fun hm => ?_⟩
    · have := List.all_eq_true.mp hh.2 _ hm; simp at this
    · have := List.all_eq_true.mp hh.2 _ hm; simp at this

/-- The hypotheses of the theorems about listeners are met: at time 8 two events are published and unread, in the end the listener has been called with the second. -/
theorem C87_live_example : MemD.Run (chan false 2 0 ex0) "m" true .safe lv (fun i => some (lvActs.getD i lvz)) ∧ Alive lv (fun i => some (lvActs.getD i lvz)) 8 ∧
    (∀ j, 8 ≤ j → ∃ h2, (lv j).hist = (lv 1).hist ++ .reg "m" "l0" :: h2 ∧ NoThrow h2 ∧ .rem "m" "l0" ∉ h2) ∧
    (mux (lv 1)).ring.cursor = -1 ∧ (∀ j, 8 ≤ j → (mux (lv j)).ring.cursor = 1) ∧ gets 0 (lv 8).hist = [] ∧ gets 0 (lv 16).hist = [(1, .init 1)] := by
  refine ⟨lv_run, ⟨by decide +kernel, ?_, ?_⟩, ?_, by decide +kernel, ?_, by decide +kernel, by decide +kernel⟩
  · intro j _
    by_cases h : j < 16
    · have := upto (P := fun i => (match lvActs.getD i lvz with | .ch (.mux (.leave _)) => false | _ => true) = true) 16 (by decide +kernel) j h
      intro e
      rw [Option.some.inj e] at this
      cases this
    · rw [late lvActs lvz (by show 16 ≤ j; omega)]; nofun
  · intro i _
    exact ⟨16 + i, by omega, lvz, congrArg some (late lvActs lvz (Nat.le_add_right 16 i)), rfl⟩
  · intro j hj
    have e1 : (lv 1).hist = [] := by decide +kernel
    rw [e1]
    apply calm0_calm
    by_cases h : j < 16
    · exact upto (P := fun i => 8 ≤ i → calm0 (lv i).hist = true) 16 (by decide +kernel) j h hj
    · obtain ⟨d, rfl⟩ : ∃ d, j = 16 + d := ⟨j - 16, by omega⟩
      rw [lv_tail d]
      decide +kernel
  · intro j hj
    by_cases h : j < 16
    · exact upto (P := fun i => 8 ≤ i → (mux (lv i)).ring.cursor = 1) 16 (by decide +kernel) j h hj
    · obtain ⟨d, rfl⟩ : ∃ d, j = 16 + d := ⟨j - 16, by omega⟩
      rw [lv_tail d]
      exact lv_obs.2

end Verif.MuxD
