import Verif.Spec.ElSchedLive
import Verif.Props.ElSched
import Verif.Props.ElDispatchLive

/-! C86, progress: every firing of a task is called by the loop in the end, unless the ring refuses it. -/

namespace Verif.ElS
open Verif Verif.Fair

variable {D κ : Type} [DecidableEq D] [DecidableEq κ] {k : Nat} {c : Bool} {kind : ElD.Kind} {σ : Nat → St D κ} {α : Nat → Option (Act D κ)}

omit [DecidableEq D] in
theorem Run.next (h : Run k c kind σ α) (i : Nat) : (α i = none ∧ σ (i + 1) = σ i) ∨ ∃ a, α i = some a ∧ step k c (σ i) a = some (σ (i + 1)) := by
  have := h.exec i
  cases ha : α i with
  | none => rw [ha] at this; exact Or.inl ⟨rfl, this⟩
  | some a => rw [ha] at this; exact Or.inr ⟨a, rfl, this⟩

omit [DecidableEq D] in
theorem Run.reach (h : Run k c kind σ α) (i : Nat) : Reach k c kind (σ i) := by
  induction i with
  | zero => exact h.start
  | succ i ih =>
    rcases h.next i with ⟨_, e⟩ | ⟨a, ha, e⟩
    · rw [e]; exact ih
    · exact .step ih (h.ok i a ha) e

/-- What the provider sees of a step. -/
def proj (s : St D κ) : Act D κ → Option (ElD.Act D Nat)
  | .el a => some a
  | .wake id => s.el.sched.map fun t => .loop (.call (thr id) t (.fn id))
  | .leave r => some (.call r)
  | _ => none

theorem step_proj {s s' : St D κ} {a : Act D κ} (hs : step k c s a = some s') :
    match proj s a with
    | none => s'.el = s.el
    | some b => ElD.step k c s.el b = some s'.el := by
  rcases (step_cases hs).2 with ⟨e, _⟩ | ⟨id, t, rfl, e, _, _, h⟩ | ⟨r, rfl, _, _, h⟩ | ⟨x, rfl, _, _, h, _⟩
  · unfold ElS.step at hs
    split at hs
    · cases hs
    cases a with
    | wake id =>
      simp only at hs
      split at hs
      · cases hs
      rename_i t ht
      split at hs
      · rename_i hl; cases hs
        simp only [proj, ht, Option.map_some]
        exact hl
      · cases hs
    | leave r =>
      simp only at hs
      split at hs
      · obtain ⟨l, hl, rfl⟩ := Option.map_eq_some_iff.mp hs; exact hl
      · cases hs
    | el x =>
      simp only at hs
      split at hs
      · obtain ⟨l, hl, rfl⟩ := Option.map_eq_some_iff.mp hs; exact hl
      · cases hs
    | _ => exact e
  · simp only [proj, e, Option.map_some]; exact h
  · exact h
  · exact h

/-- The actions of the provider inside. -/
def acts (σ : Nat → St D κ) (α : Nat → Option (Act D κ)) (j : Nat) : Option (ElD.Act D Nat) := (α j).bind (proj (σ j))

theorem Run.proj (h : Run k c kind σ α) : ElD.Run k c kind (fun j => (σ j).el) (acts σ α) where
  hk := h.hk
  start := (h.reach 0).el
  exec := by
    intro j
    rcases h.next j with ⟨h1, h2⟩ | ⟨a, h1, h2⟩
    · simp only [acts, h1, Option.bind_none]; rw [h2]
    · have := step_proj h2
      simp only [acts, h1, Option.bind_some]
      cases hp : ElS.proj (σ j) a with
      | none => rw [hp] at this; exact this
      | some b => rw [hp] at this; exact this
  ok := by
    intro j b hb
    obtain ⟨a, h1, h2⟩ := Option.bind_eq_some_iff.mp hb
    match a, h2 with
    | .el b', h2 => cases h2; exact h.ok j _ h1
    | .leave r, h2 => cases h2; exact ⟨⟨trivial, trivial⟩, fun _ e => by cases e⟩
    | .wake id, h2 =>
      obtain ⟨t, _, rfl⟩ := Option.map_eq_some_iff.mp h2
      exact ⟨⟨trivial, trivial⟩, fun a ha hst => by cases ha; cases hst⟩

omit [DecidableEq D] [DecidableEq κ] in
theorem PubFair.proj {p : Nat} (hf : PubFair σ α p) : ElD.PubFair (fun j => (σ j).el) (acts σ α) p where
  turn := by
    intro i hb
    obtain ⟨j, hj, a, h1, b, rfl, h2⟩ := hf.turn i hb
    exact ⟨j, hj, .loop b, by simp only [acts, h1]; rfl, b, rfl, h2⟩
  weak := by
    obtain ⟨n0, hw⟩ := hf.weak
    refine ⟨n0, fun n hn e => ?_⟩
    obtain ⟨a, h1, h2⟩ := Option.bind_eq_some_iff.mp e
    match a, h2 with
    | .el b', h2 => cases h2; exact hw n hn h1
    | .leave r, h2 => cases h2
    | .wake id, h2 =>
      obtain ⟨t, _, h3⟩ := Option.map_eq_some_iff.mp h2
      cases h3

omit [DecidableEq D] in
/-- Only the return of a function or listener ends its call. -/
theorem step_inCall {s s' : St D κ} {a : Act D κ} (hs : step k c s a = some s') (hl : ∀ r, a ≠ .leave r) :
    (s.inCall = true → s'.inCall = true) ∧ (a = .enter → s.inCall = false ∧ s'.inCall = true) := by
  unfold ElS.step at hs
  split at hs
  · cases hs
  cases a with
  | leave r => exact absurd rfl (hl r)
  | enter =>
    simp only at hs
    split at hs
    · rename_i hc; cases hs
      refine ⟨fun _ => rfl, fun _ => ⟨?_, rfl⟩⟩
      simp only [Bool.and_eq_true, Bool.not_eq_true'] at hc
      exact hc.2
    · cases hs
  | wake id =>
    simp only at hs
    (repeat' split at hs) <;> first | (cases hs; done) | (cases hs; exact ⟨fun h => h, fun e => by cases e⟩)
  | _ =>
    simp only [lift] at hs
    (repeat' split at hs) <;> first
      | (cases hs; done)
      | (simp only [Option.map_eq_some_iff] at hs; obtain ⟨l, hl, rfl⟩ := hs; exact ⟨fun h => h, fun e => by cases e⟩)

omit [DecidableEq D] in
theorem LoopAlive.proj (h : Run k c kind σ α) {i : Nat} (ha : LoopAlive σ α i) : ElD.LoopAlive (fun j => (σ j).el) (acts σ α) i where
  running := ha.running
  stays := fun j hj e => by
    obtain ⟨a, h1, h2⟩ := Option.bind_eq_some_iff.mp e
    match a, h2 with
    | .el b', h2 => cases h2; exact ha.stays j hj h1
    | .leave r, h2 => cases h2
    | .wake id, h2 =>
      obtain ⟨t, _, h3⟩ := Option.map_eq_some_iff.mp h2
      cases h3
  fair := by
    intro l hb
    have hturn := fun j (hj : l ≤ j) => ha.fair j fun j' hj' => hb j' (Nat.le_trans hj hj')
    apply Classical.byContradiction
    intro hno
    have hno : ∀ j, l ≤ j → ∀ a, α j = some a → ∀ b, ElS.proj (σ j) a = some b → ¬ ElD.LoopTurn b := fun j hj a h1 b h2 h3 =>
      hno ⟨j, hj, b, by simp only [acts, h1, Option.bind_some]; exact h2, h3⟩
    obtain ⟨_, _, hf⟩ := Fair.eventually (σ := σ) (α := α) LoopTurn (fun _ => False) (fun s => if s.inCall = true then 0 else 1) l hturn (by
      intro j hj _
      rcases h.next j with ⟨hnone, e⟩ | ⟨a, h1, e⟩
      · rw [e]; exact ⟨Nat.le_refl _, fun a ha => by rw [hnone] at ha; cases ha⟩
      · have hn := hno j hj a h1
        have hl : ∀ r, a ≠ .leave r := fun r e => hn (.call r) (by rw [e]; rfl) trivial
        obtain ⟨g1, g2⟩ := step_inCall e hl
        refine ⟨?_, fun a' ha' ht => ?_⟩
        · by_cases hc : (σ j).inCall = true
          · simp [hc, g1 hc]
          · simp only [hc]
            split <;> simp
        · rw [h1] at ha'; cases ha'
          match a, ht with
          | .el x, ht => exact absurd ht (hn x rfl)
          | .leave r, _ => exact absurd rfl (hl r)
          | .enter, _ =>
            obtain ⟨e1, e2⟩ := g2 rfl
            simp [e1, e2])
    exact hf

theorem LoopAlive.from (h : Run k c kind σ α) {i j : Nat} (ha : LoopAlive σ α i) (hij : i ≤ j) : LoopAlive σ α j :=
  ⟨(((ha.proj h).proj h.proj).from h.proj.proj hij).1.running, fun j' hj => ha.stays j' (by omega), ha.fair⟩

theorem firings_step {s s' : St D κ} {a : Act D κ} (hs : step k c s a = some s') : firings s <+: firings s' := by
  have main : ∀ b, b ≠ .loop → Sched.step true s.sch b = some s'.sch → s.sch.queue <+: s'.sch.queue := by
    intro b hb h
    unfold Sched.step at h
    split at h
    · cases h
    generalize s'.sch = z at h
    cases b with
    | loop => exact absurd rfl hb
    | _ =>
      simp only [if_true] at h
      (repeat' split at h) <;> first | (cases h; done) | (cases h; exact List.prefix_refl _) | (cases h; exact List.prefix_append _ _)
  rcases (step_cases hs).2 with ⟨_, _, e | ⟨b, b1, b2, b3, b4⟩⟩ | ⟨i, t, _, _, _, h3, _⟩ | ⟨r, _, e, _⟩ | ⟨x, _, _, e, _⟩
  · unfold firings; rw [e]
  · exact main b b3 b4
  · exact main (.wake i) (fun e => by cases e) h3
  · unfold firings; rw [e]
  · unfold firings; rw [e]

theorem Run.mono (h : Run k c kind σ α) {i j : Nat} (hij : i ≤ j) : firings (σ i) <+: firings (σ j) ∧ ∀ id, (σ i).lost.count id ≤ (σ j).lost.count id := by
  induction hij with
  | refl => exact ⟨List.prefix_refl _, fun _ => Nat.le_refl _⟩
  | step _ ih =>
    rename_i m _
    obtain ⟨i1, i2⟩ := ih
    rcases h.next m with ⟨_, e⟩ | ⟨a, _, e⟩
    · show _ <+: firings (σ (m + 1)) ∧ ∀ id, _ ≤ (σ (m + 1)).lost.count id
      rw [e]; exact ⟨i1, i2⟩
    · refine ⟨i1.trans ?_, fun id => Nat.le_trans (i2 id) ?_⟩
      · exact firings_step e
      · rcases (step_cases e).2 with ⟨_, e, _⟩ | ⟨_, _, _, _, e, _⟩ | ⟨_, _, _, e, _⟩ | ⟨_, _, _, _, _, e⟩ <;> simp only [Nat.succ_eq_add_one] <;> rw [e]
        rw [List.count_append]; omega

/-- **C86**, progress: the loop runs at time `i` and is not stopped, and the scheduler of the system forgets neither its thread nor a thread in the middle of `publish`.
Then the loop has called, at some later time, the function of every firing accepted up to time `i`, in the order of acceptance.  Functions and listeners may throw. -/
theorem C86_accepted_called (h : Run k c kind σ α) (hf : ∀ p, PubFair σ α p) {i : Nat} (ha : LoopAlive σ α i) :
    ∃ j, i ≤ j ∧ accepted (σ i) <+: called (σ j).el.hist := by
  obtain ⟨j, j1, j2, j3⟩ := ElD.C79_all_taken_up h.proj (fun p => (hf p).proj) (ha.proj h)
  refine ⟨j, j1, ?_⟩
  obtain ⟨r, f1, _, f3⟩ := C86_called_once_in_order h.hk (h.reach j)
  rw [f3 j2, List.append_nil] at f1
  rw [f1]
  have hle : (EvLoop.acceptedInOrder (σ i).el.loop).length ≤ (ElD.starts (σ j).el.hist).length := by
    have := congrArg List.length j3
    simp only [List.length_take, List.length_map] at this
    omega
  obtain ⟨L, hL⟩ := h.proj.accepted_prefix j1
  refine List.IsPrefix.filterMap _ ?_
  rw [← hL, List.take_append, List.take_of_length_le hle]
  exact List.prefix_append _ _

/-- **C86**, progress: under the same conditions every firing of a task up to time `i` is called or refused in the end, whatever the other tasks and users do. -/
theorem C86_fired_called_or_refused (h : Run k c kind σ α) (hf : ∀ p, PubFair σ α p) {i : Nat} (ha : LoopAlive σ α i) (id : Nat) :
    ∃ j, i ≤ j ∧ (firings (σ i)).count id ≤ (called (σ j).el.hist).count id + (σ j).lost.count id := by
  obtain ⟨m, m1, m2⟩ := EvLoop.C72_publish_returns h.proj.proj (p := thr id) ((hf _).proj.proj) i
  obtain ⟨j, j1, j2⟩ := C86_accepted_called h hf (ha.from h (Nat.le_of_lt m1))
  refine ⟨j, by omega, ?_⟩
  have e1 := C86_firings_accounted h.hk (h.reach m) id
  have e2 : undecided (σ m) id = 0 := by unfold undecided; rw [m2]
  have e3 := (h.mono (Nat.le_of_lt m1)).1.sublist.count_le id
  have e4 := j2.sublist.count_le id
  have e5 := (h.mono j1).2 id
  omega

/-! ### A concrete execution: a task that fires once and is delivered; then the loop looks for events for ever. -/

def lvActs : List (Act Nat String) := [.el (.getScheduler ""), .start false "x" true] ++ fire 0 0 ++ deliver 1

def lvAct (i : Nat) : Act Nat String := lvActs.getD i (.el (.loop .look))

def lv : Nat → St Nat String
  | 0 => started .safe
  | i + 1 => (step 1 false (lv i) (lvAct i)).getD (lv i)

theorem lv_len : lvActs.length = 18 := by decide

theorem lv_late {i : Nat} (h : 18 ≤ i) : lvAct i = .el (.loop .look) := by
  unfold lvAct
  rw [List.getD_eq_getElem?_getD, List.getElem?_eq_none (by rw [lv_len]; exact h)]
  rfl

theorem lv_end : (lv 18).el.loop.ring.cp 0 = .wait 1 ∧ (lv 18).el.loop.ring.cursor = 0 ∧ (lv 18).sch.terminated = false := by decide +kernel

omit [DecidableEq D] in
theorem look_same {s : St D κ} (ht : s.sch.terminated = false) (h : EvLoop.step k s.el.loop .look = some s.el.loop) : step k c s (.el (.loop .look)) = some s := by
  simp [step, ht, free, ElD.look_same h, lostNow]

theorem lv_look : step 1 false (lv 18) (.el (.loop .look)) = some (lv 18) :=
  look_same lv_end.2.2 (by simp [EvLoop.step, EvLoop.lift, MRing.step, lv_end.1, lv_end.2.1])

theorem lv_tail (d : Nat) : lv (18 + d) = lv 18 := by
  induction d with
  | zero => rfl
  | succ d ih =>
    show (step 1 false (lv (18 + d)) (lvAct (18 + d))).getD (lv (18 + d)) = _
    rw [lv_late (by omega), ih, lv_look, Option.getD_some]

theorem lv_run : Run 1 false .safe lv (fun i => some (lvAct i)) where
  hk := by decide
  start := reach_started .safe
  exec := by
    have : ∀ i, (step 1 false (lv i) (lvAct i)).isSome = true := EvLoop.cases_at 18 (by decide +kernel) (fun d => by
      rw [lv_tail, lv_late (by omega), lv_look]; rfl)
    intro i
    show step 1 false _ _ = some ((step 1 false _ _).getD _)
    have := this i
    cases e : step 1 false (lv i) (lvAct i) with
    | none => rw [e] at this; cases this
    | some t => rfl
  ok := by
    have : ∀ i, okC (lv i) (lvAct i) = true := EvLoop.cases_at 18 (by decide +kernel) (fun d => by
      rw [lv_tail, lv_late (by omega)]; rfl)
    intro i a ha
    have hi := this i
    rw [Option.some.inj ha] at hi
    cases a with
    | el x => exact ElD.okC_ok hi
    | _ => trivial

theorem lv_alive : LoopAlive lv (fun i => some (lvAct i)) 0 := by
  refine ⟨by decide +kernel, ?_, ?_⟩
  · have : ∀ i, (match lvAct i with | .el (.loop .stop) => false | _ => true) = true := EvLoop.cases_at 18 (by decide +kernel) (fun d => by
      rw [lv_late (by omega)])
    intro j _ e
    have h := this j
    rw [Option.some.inj e] at h
    cases h
  · intro i _
    exact ⟨18 + i, by omega, .el (.loop .look), by show some (lvAct (18 + i)) = _; rw [lv_late (by omega)], Or.inl rfl⟩

theorem lv_fair (p : Nat) : PubFair lv (fun i => some (lvAct i)) p := by
  refine ⟨?_, 18, fun n hn e => by rw [lv_late hn] at e; cases e⟩
  intro i hb
  exfalso
  have h18 : ∀ p, (lv 18).el.loop.pc p = .idle := by
    intro p
    by_cases hp : p = 1
    · subst hp; decide +kernel
    · have : (lv 18).el.loop.pc = upd (upd (upd (upd (fun _ => .idle) 1 (.claiming "EVENTLOOP_SCHEDULER" (.fn 0))) 1 (.claimed "EVENTLOOP_SCHEDULER" (.fn 0) 0)) 1
          (.written "EVENTLOOP_SCHEDULER" (.fn 0) 0)) 1 .idle := by rfl
      rw [this, upd_other _ _ hp, upd_other _ _ hp, upd_other _ _ hp, upd_other _ _ hp]
  exact hb (18 + i) (by omega) (by rw [lv_tail]; exact h18 p)

/-- **C86**: the hypotheses of the two theorems are met by this execution; at time 9 the task has fired and has not been called, later it has. -/
theorem C86_live_example : Run 1 false .safe lv (fun i => some (lvAct i)) ∧ (∀ p, PubFair lv (fun i => some (lvAct i)) p) ∧ LoopAlive lv (fun i => some (lvAct i)) 0 ∧
    firings (lv 9) = [0] ∧ accepted (lv 9) = [0] ∧ called (lv 9).el.hist = [] ∧ called (lv 18).el.hist = [0] :=
  ⟨lv_run, lv_fair, lv_alive, by decide +kernel, by decide +kernel, by decide +kernel, by decide +kernel⟩

end Verif.ElS
