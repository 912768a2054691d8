import Verif.Lemmas.Live
import Verif.Props.Chain

/-!
C71: under every fair schedule, every published event is handled in the end, and a producer that waits for a slot gets it.

These are statements about infinite executions: `σ i` is the state at time `i`, `α i` what happens then (Spec/Fair.lean, Spec/Live.lean).
The scheduler may do what it likes as long as it does not forget a thread for ever.
-/

namespace Verif.Chain
open Verif Verif.Disr Verif.Fair

variable {V : Type} {cfg : Cfg} {v : V} {σ : Nat → St V} {α : Nat → Option (Act V)}

theorem all_reach (h : Run cfg v σ α) (all : List Nat) (ho : Ordered cfg all) {i : Nat} (ha : ∀ p ∈ all, Alive σ α p i) {x : Int}
    (hx : x ≤ (σ i).cursor) (hll : x ≤ llmax) : ∀ (r l : List Nat), all = l ++ r → ∀ j, i ≤ j → (∀ p ∈ l, x ≤ (σ j).seq p) →
      ∃ k, j ≤ k ∧ ∀ p ∈ all, x ≤ (σ k).seq p := by
  intro r
  induction r with
  | nil => intro l e j _ hl; exact ⟨j, Nat.le_refl _, by rw [e]; simpa using hl⟩
  | cons p r ih =>
    intro l e j hij hl
    have hdep := ho l p r e
    obtain ⟨k, k1, k2⟩ := Alive.reaches h hll _ ((ha p (by rw [e]; simp)).from h hij)
      ⟨Int.le_trans hx (h.cursor_mono hij), fun d hd => hl d (hdep d hd)⟩ (Nat.le_refl _)
    obtain ⟨m, m1, m2⟩ := ih (l ++ [p]) (by simp [e]) k (by omega) (by
      intro q hq
      rcases List.mem_append.mp hq with hq | hq
      · exact Int.le_trans (hl q hq) (h.seq_mono q k1)
      · simp only [List.mem_singleton] at hq; subst hq; exact k2)
    exact ⟨m, by omega, m2⟩

theorem seq_finished {s : St V} (h : Inv cfg s) {p : Nat} (hn : cfg.noop p = false) {x : Int} (h0 : 0 ≤ x) (hx : x ≤ s.seq p) : x ∈ finished s p := by
  have hp := h.hist p
  unfold HInv at hp
  rw [if_neg (by simp [hn])] at hp
  simp only [finished, List.mem_reverse]
  rw [hp.1, mem_down]
  have hi := h.cons p
  cases e : s.cp p <;> rw [e] at hi <;> simp only [CInv, CPc.pos] at hi ⊢ <;> omega

/-- **C71**.  `ps` are processors in `run` that are not halted, listed so that each depends only on earlier ones, and the scheduler is
fair to them; producers, other processors and registrations may do anything.  Every event published so far is handled, in the end, by
every one of them, even if handlers throw. -/
theorem C71_every_event_handled (h : Run cfg v σ α) (ps : List Nat) (ho : Ordered cfg ps) {i : Nat} (ha : ∀ p ∈ ps, Alive σ α p i)
    {x : Int} (h0 : 0 ≤ x) (hx : x ≤ (σ i).cursor) (hll : (σ i).cursor ≤ 2 ^ 63 - 1) :
    ∃ j, i ≤ j ∧ ∀ p ∈ ps, cfg.noop p = false → x ∈ finished (σ j) p := by
  obtain ⟨k, k1, k2⟩ := all_reach h ps ho ha hx (Int.le_trans hx hll) ps [] rfl i (Nat.le_refl _) nofun
  exact ⟨k, k1, fun p hp hn => seq_finished (h.inv k) hn h0 (k2 p hp)⟩

/-- **C71**.  The producer calls `next(n)`, with no more slots than the ring has, and has published everything it claimed before; the
processors it waits for are alive as above, and the scheduler is fair to the producer too.  Then `next` returns, in the end, with its
`n` slots.  Missing: `n` larger than the ring, where it is false (next theorem). -/
theorem C71_next_returns_partial (h : Run cfg v σ α) (ps : List Nat) (ho : Ordered cfg ps) {i : Nat} (ha : ∀ p ∈ ps, Alive σ α p i)
    (hg : ∀ c ∈ (σ i).gating, c ∈ ps) (hf : FairTo (fun s : St V => s.pp ≠ .idle) (fun a => a = .pstep) σ α) {n : Int}
    (hc : α i = some (.callNext n)) (hn : n ≤ 2 ^ cfg.k) (hp : (σ i).nextVal = (σ i).cursor) (hll : (σ i).cursor ≤ 2 ^ 63 - 1) :
    ∃ j, i < j ∧ (σ j).pp = .idle ∧ (σ j).nextVal = (σ i).nextVal + n := by
  have hs : step cfg (σ i) (.callNext n) = some (σ (i + 1)) := by
    have := h.exec i
    rw [hc] at this
    exact this
  simp only [step] at hs
  split at hs
  · split at hs
    · simp only [Option.some.injEq] at hs
      obtain ⟨k, k1, k2⟩ := all_reach h ps ho ha (x := (σ i).nextVal + n - 2 ^ cfg.k) (by omega) (by show _ ≤ (2 : Int) ^ 63 - 1; omega)
        ps [] rfl i (Nat.le_refl _) nofun
      -- scans that begin before `k`
      have key : ∀ d j, k - j ≤ d → i < j → (σ j).nextVal = (σ i).nextVal → (σ j).pp = .nScan n (σ j).gating (σ i).nextVal →
          (∀ c ∈ (σ j).gating, c ∈ ps) → ∃ l, i < l ∧ (σ l).pp = .idle ∧ (σ l).nextVal = (σ i).nextVal + n := by
        intro d
        induction d with
        | zero =>
          intro j hkj hij hnj hpj hgj
          obtain ⟨l, l1, ⟨e1, e2⟩ | ⟨_, _, _, e4⟩⟩ := prod_scan h hf _ hpj hnj
          · exact ⟨l, by omega, e1, e2⟩
          · exfalso
            exact e4 ⟨by omega, fun c hc => Int.le_trans (k2 c (hgj c hc)) (h.seq_mono c (by omega))⟩
        | succ d ih =>
          intro j hkj hij hnj hpj hgj
          obtain ⟨l, l1, ⟨e1, e2⟩ | ⟨e1, e2, e3, _⟩⟩ := prod_scan h hf _ hpj hnj
          · exact ⟨l, by omega, e1, e2⟩
          · by_cases hl : l = j
            · -- nothing happened: take one turn of the producer first
              obtain ⟨j', m1, m2, m3, m4, m5⟩ := prod_next h hf (i := j) (by rw [hpj]; exact fun e => by cases e)
              rw [hpj] at m3
              cases hgg : (σ j).gating with
              | nil =>
                rw [hgg] at m3
                simp only [pstep, m3] at m2
                rw [if_neg (by rw [m4, hnj]; omega)] at m2
                simp only [Option.some.injEq] at m2
                exact ⟨j' + 1, by omega, by rw [← m2]; rfl, by rw [← m2]; show (σ j').nextVal + n = _; rw [m4, hnj]⟩
              | cons c r =>
                rw [hgg] at m3
                simp only [pstep, m3, Option.some.injEq] at m2
                obtain ⟨q, q1, ⟨e1, e2⟩ | ⟨e1, e2, e3, _⟩⟩ := prod_scan h hf (N := (σ i).nextVal) r (i := j' + 1)
                  (m := if (σ j').seq c < (σ i).nextVal then (σ j').seq c else (σ i).nextVal) (by rw [← m2])
                  (by rw [← m2]; show (σ j').nextVal = _; rw [m4, hnj])
                · exact ⟨q, by omega, e1, e2⟩
                · exact ih q (by omega) (by omega) e2 e1 (fun c hc => hgj c (m5 c (by
                    have := e3 c hc; rw [← m2] at this; exact this)))
            · exact ih l (by omega) (by omega) e2 e1 (fun c hc => hgj c (e3 c hc))
      exact key (k - (i + 1)) (i + 1) (Nat.le_refl _) (by omega) (by rw [← hs]) (by rw [← hs]) (by rw [← hs]; exact hg)
    · simp only [Option.some.injEq] at hs
      exact ⟨i + 1, by omega, by rw [← hs]; rfl, by rw [← hs]; rfl⟩
  · cases hs

/-- **C71, finding**: `next(n)` with more slots than the ring has does not fail: it never returns, whatever the schedule, and nothing
tells the caller (single_producer_sequencer.h 147-162 checks `n < 1` only). -/
theorem C71_violation_oversized_never_returns (h : Run cfg v σ α) {i : Nat} {n : Int} (hc : α i = some (.callNext n)) (hn : 2 ^ cfg.k < n) :
    ∀ j, i < j → (σ j).pp ≠ .idle ∧ (σ j).nextVal = (σ i).nextVal := by
  have hs : step cfg (σ i) (.callNext n) = some (σ (i + 1)) := by
    have := h.exec i
    rw [hc] at this
    exact this
  have first : (∃ rest m, (σ (i + 1)).pp = .nScan n rest m) ∧ (σ (i + 1)).nextVal = (σ i).nextVal := by
    simp only [step] at hs
    split at hs
    · rw [if_pos (by have := (h.inv i).cached_le; omega)] at hs
      simp only [Option.some.injEq] at hs
      rw [← hs]
      exact ⟨⟨_, _, rfl⟩, rfl⟩
    · cases hs
  have all : ∀ j, i + 1 ≤ j → (∃ rest m, (σ j).pp = .nScan n rest m) ∧ (σ j).nextVal = (σ i).nextVal := by
    intro j hj
    induction hj with
    | refl => exact first
    | step _ ih =>
      rename_i j _
      obtain ⟨⟨rest, m, e⟩, e2⟩ := ih
      rcases h.next j with e0 | ⟨a, ha, hs⟩
      · rw [e0]; exact ⟨⟨rest, m, e⟩, e2⟩
      · by_cases hp : a = .pstep
        · subst hp
          simp only [step, pstep, e] at hs
          have hi := (h.inv j).prod
          rw [e] at hi
          cases rest with
          | nil =>
            simp only at hs
            rw [if_pos (by have := hi.2.1; omega)] at hs
            simp only [Option.some.injEq] at hs
            rw [← hs]; exact ⟨⟨_, _, rfl⟩, e2⟩
          | cons c rest =>
            simp only [Option.some.injEq] at hs
            rw [← hs]; exact ⟨⟨_, _, rfl⟩, e2⟩
        · obtain ⟨g1, g2, _⟩ := prod_other hs (h.late _) hp (by rw [e]; exact fun e => by cases e)
          exact ⟨⟨rest, m, by rw [g1, e]⟩, by rw [g2, e2]⟩
  intro j hj
  obtain ⟨⟨rest, m, e⟩, e2⟩ := all j hj
  exact ⟨by (rw [e]; exact fun e => by cases e), e2⟩

/-! A concrete execution: a ring of one slot, one processor, one event, a producer that waits for the slot, and then the processor looks for the next event for ever. -/

def exCfg : Cfg := { k := 0, deps := fun _ => [], noop := fun _ => false }

def exScript : List (Act Nat) :=
  [.addGating 0, .run 0, .callNext 1, .write 0 7, .publish 0, .callNext 1, .pstep, .pstep, .look 0, .advance 0, .finish 0, .advance 0, .pstep, .pstep]

def exAct (i : Nat) : Act Nat := (exScript[i]?).getD (.look 0)

def exSt : Nat → St Nat
  | 0 => St.init 0
  | i + 1 => (step exCfg (exSt i) (exAct i)).getD (exSt i)

theorem ex_early : ∀ i < 14, (step exCfg (exSt i) (exAct i)).isSome = true := by decide +kernel

theorem ex_late_act {i : Nat} (h : 14 ≤ i) : exAct i = .look 0 := by
  unfold exAct
  rw [List.getElem?_eq_none (by simpa [exScript] using h)]
  rfl

theorem ex_tail : ∀ d, (exSt (14 + d)).cp 0 = .wait 1 ∧ (exSt (14 + d)).cursor = 0 ∧ (exSt (14 + d)).late = false := by
  intro d
  induction d with
  | zero => decide +kernel
  | succ d ih =>
    have : exSt (14 + (d + 1)) = exSt (14 + d) := by
      show (step exCfg (exSt (14 + d)) (exAct (14 + d))).getD (exSt (14 + d)) = _
      rw [ex_late_act (by omega)]
      simp [step, look, ih.1, ih.2.1, exCfg]
    rw [this]; exact ih

theorem ex_exec : Exec (step exCfg) exSt (fun i => some (exAct i)) := by
  intro i
  show step exCfg (exSt i) (exAct i) = some ((step exCfg (exSt i) (exAct i)).getD (exSt i))
  by_cases h : i < 14
  · have := ex_early i h
    cases e : step exCfg (exSt i) (exAct i) with
    | none => rw [e] at this; cases this
    | some t => rfl
  · obtain ⟨d, rfl⟩ : ∃ d, i = 14 + d := ⟨i - 14, by omega⟩
    have := ex_tail d
    rw [ex_late_act (by omega)]
    simp [step, look, this.1, this.2.1, exCfg]

/-- **C71**: the hypotheses of the theorems are met by a concrete execution, in which an event is published at
time 4, the producer calls `next` again at time 5, the handler is done at time 11 and `next` returns at time 14. -/
theorem C71_example : Run exCfg 0 exSt (fun i => some (exAct i)) ∧ Ordered exCfg [0] ∧ (∀ p ∈ [0], Alive exSt (fun i => some (exAct i)) p 5) ∧
    FairTo (fun s : St Nat => s.pp ≠ .idle) (fun a => a = .pstep) exSt (fun i => some (exAct i)) ∧
    (exSt 5).gating = [0] ∧ exAct 5 = .callNext 1 ∧ (exSt 5).nextVal = (exSt 5).cursor ∧ (exSt 5).cursor = 0 ∧
    finished (exSt 5) 0 = [] ∧ finished (exSt 11) 0 = [0] ∧ (exSt 13).pp ≠ .idle ∧ (exSt 14).nextVal = 1 := by
  refine ⟨⟨by decide, .init, ex_exec, ?_⟩, ?_, ?_, ?_, by decide +kernel, rfl, by decide +kernel, by decide +kernel, by decide +kernel, by decide +kernel, by decide +kernel, by decide +kernel⟩
  · intro i
    by_cases h : i < 14
    · have : ∀ i < 14, (exSt i).late = false := by decide +kernel
      exact this i h
    · obtain ⟨d, rfl⟩ : ∃ d, i = 14 + d := ⟨i - 14, by omega⟩
      exact (ex_tail d).2.2
  · intro l p r _ q hq; cases hq
  · intro p hp
    simp only [List.mem_singleton] at hp
    subst hp
    refine ⟨by decide +kernel, ?_, ?_⟩
    · intro j _ e
      simp only [Option.some.injEq] at e
      by_cases h : j < 14
      · have : ∀ i < 14, (match exAct i with | .leave _ => false | _ => true) = true := by decide +kernel
        have := this j h
        rw [e] at this; cases this
      · rw [ex_late_act (by omega)] at e; cases e
    · intro i _
      exact ⟨14 + i, by omega, .look 0, by show some (exAct (14 + i)) = _; rw [ex_late_act (by omega)], Or.inl rfl⟩
  · intro i hb
    by_cases h : i ≤ 13
    · exact ⟨13, h, .pstep, rfl, rfl⟩
    · exfalso
      have : ∀ d, (exSt (14 + d)).pp = .idle := by
        intro d
        induction d with
        | zero => decide +kernel
        | succ d ih =>
          have e : exSt (14 + (d + 1)) = exSt (14 + d) := by
            show (step exCfg (exSt (14 + d)) (exAct (14 + d))).getD (exSt (14 + d)) = _
            rw [ex_late_act (by omega)]
            have := ex_tail d
            simp [step, look, this.1, this.2.1, exCfg]
          rw [e]; exact ih
      have h2 := this (i - 14)
      rw [show 14 + (i - 14) = i by omega] at h2
      exact hb i (Nat.le_refl _) h2

end Verif.Chain
