import Verif.Props.Poller
import Verif.Lemmas.Fair

/-! C46, liveness of the pollers: `start`, `stop` and the destructor return. -/

namespace Verif.Poller
open Verif.Fair

variable {σ : Nat → St} {α : Nat → Option Act}

/-- The polling thread has something to do. -/
def ThBusy (s : St) : Prop := s.th = .spawned ∨ s.th = .loop ∨ s.th = .inCall

/-- The controlling thread can leave the call it is in: the thread it joins has ended, or it is in the waiting loop of `start`. -/
def CtlBusy (s : St) : Prop :=
  (s.ctl = .joining ∨ s.ctl = .joiningD) ∧ (s.th = .done ∨ s.th = .absent) ∨ s.ctl = .waiting ∨ s.ctl = .destroying

/-- An infinite execution from a new poller, in which the polling thread is scheduled (and its calls of `takeEventFromQueue` return or throw)
and the controlling thread is scheduled. -/
structure Run (σ : Nat → St) (α : Nat → Option Act) : Prop where
  init : σ 0 = St.init
  exec : Exec step σ α
  thread : FairTo ThBusy (fun a => a.isThread = true) σ α
  control : FairTo CtlBusy (fun a => a.isThread = false) σ α

theorem Run.next (h : Run σ α) (i : Nat) : (α i = none ∧ σ (i + 1) = σ i) ∨ ∃ a, α i = some a ∧ step (σ i) a = some (σ (i + 1)) := by
  have := h.exec i
  cases e : α i with
  | none => rw [e] at this; exact Or.inl ⟨rfl, this⟩
  | some a => rw [e] at this; exact Or.inr ⟨a, rfl, this⟩

theorem Run.reach (h : Run σ α) (i : Nat) : Reach (σ i) := by
  induction i with
  | zero => rw [h.init]; exact Reach.init
  | succ i ih =>
    rcases h.next i with ⟨_, e⟩ | ⟨a, _, e⟩
    · rw [e]; exact ih
    · exact ih.step a e

/-- While the controlling thread joins, its state changes only by the end of the join, and the thread only comes nearer to its end. -/
theorem join_step {s s' : St} (hc : s.ctl = .joining ∨ s.ctl = .joiningD) (hru : s.running = false) (hsp : s.th ≠ .spawned) (a : Act)
    (hs : step s a = some s') :
    (a.isThread = true ∧ s'.ctl = s.ctl ∧ s'.running = false ∧ s'.th ≠ .spawned ∧ s'.th.rank < s.th.rank ∧ s'.calls = s.calls) ∨
    (a = .joined ∧ s.ctl = .joining ∧ s'.ctl = .idle ∧ s'.th = .absent ∧ s'.started = false ∧ s'.calls = s.calls) ∨
    (a = .joinedD ∧ s.ctl = .joiningD ∧ s'.ctl = .dead ∧ s'.th = .absent ∧ s'.calls = s.calls) := by
  cases a <;> simp only [step] at hs <;> (repeat' split at hs) <;> (try cases hs) <;> simp_all [Act.isThread, Th.rank]

/-- The controlling thread has left the join it was in. -/
def Left (c : Ctl) (n : Nat) (s : St) : Prop :=
  s.th = .absent ∧ s.calls = n ∧ (c = .joining → s.ctl = .idle ∧ s.started = false) ∧ (c = .joiningD → s.ctl = .dead)

theorem Run.joins (h : Run σ α) {i : Nat} (hc : (σ i).ctl = .joining ∨ (σ i).ctl = .joiningD) (hru : (σ i).running = false)
    (hsp : (σ i).th ≠ .spawned) : ∃ j, i ≤ j ∧ Left (σ i).ctl (σ i).calls (σ j) := by
  apply Classical.byContradiction
  intro hno
  have stay : ∀ j, i ≤ j → (σ j).ctl = (σ i).ctl ∧ (σ j).running = false ∧ (σ j).th ≠ .spawned ∧ (σ j).calls = (σ i).calls := by
    intro j hj
    induction hj with
    | refl => exact ⟨rfl, hru, hsp, rfl⟩
    | @step m hm ih =>
      obtain ⟨h1, h2, h3, h4⟩ := ih
      rcases h.next m with ⟨_, e⟩ | ⟨a, _, e⟩
      · rw [e]; exact ⟨h1, h2, h3, h4⟩
      rcases join_step (by rw [h1]; exact hc) h2 h3 a e with ⟨_, k1, k2, k3, _, k5⟩ | ⟨_, k0, k1, k2, k3, k4⟩ | ⟨_, k0, k1, k2, k4⟩
      · exact ⟨k1.trans h1, k2, k3, k5.trans h4⟩
      · exact absurd ⟨m + 1, Nat.le_succ_of_le hm, k2, k4.trans h4, fun _ => ⟨k1, k3⟩, fun hh => by rw [← h1, k0] at hh; cases hh⟩ hno
      · exact absurd ⟨m + 1, Nat.le_succ_of_le hm, k2, k4.trans h4, fun hh => by (rw [← h1, k0] at hh; cases hh), fun _ => k1⟩ hno
  have move : ∀ m, i ≤ m → ∀ a, α m = some a → a.isThread = true ∧ (σ (m + 1)).th.rank < (σ m).th.rank := by
    intro m hm a ha
    obtain ⟨h1, h2, h3, h4⟩ := stay m hm
    have h1' := (stay (m + 1) (Nat.le_succ_of_le hm)).1
    have e : step (σ m) a = some (σ (m + 1)) := by have := h.exec m; rw [ha] at this; exact this
    rcases join_step (by rw [h1]; exact hc) h2 h3 a e with ⟨k0, _, _, _, k4, _⟩ | ⟨_, k0, k1, _⟩ | ⟨_, k0, k1, _⟩
    · exact ⟨k0, k4⟩
    · rw [h1', ← h1, k0] at k1; cases k1
    · rw [h1', ← h1, k0] at k1; cases k1
  have mono : ∀ m, i ≤ m → (σ (m + 1)).th.rank ≤ (σ m).th.rank := by
    intro m hm
    rcases h.next m with ⟨_, e⟩ | ⟨a, ha, _⟩
    · rw [e]; exact Nat.le_refl _
    · exact Nat.le_of_lt (move m hm a ha).2
  have hend : ∃ j, i ≤ j ∧ (σ j).th.rank = 0 := by
    apply Classical.byContradiction
    intro hn
    have hb : ∀ j, i ≤ j → ThBusy (σ j) := by
      intro j hj
      have h0 : (σ j).th.rank ≠ 0 := fun e => hn ⟨j, hj, e⟩
      cases e : (σ j).th <;> simp_all [Th.rank, ThBusy]
    exact hn (eventually (σ := σ) (α := α) (fun a => a.isThread = true) (fun s => s.th.rank = 0) (fun s => s.th.rank) i
      (fun k hk => h.thread k (fun j hj => hb j (Nat.le_trans hk hj)))
      (fun j hj _ => ⟨mono j hj, fun a ha _ => (move j hj a ha).2⟩))
  obtain ⟨k, hk, hz⟩ := hend
  have hz' : ∀ j, k ≤ j → (σ j).th.rank = 0 := by
    intro j hj
    induction hj with
    | refl => exact hz
    | @step m hm ih =>
      have := mono m (Nat.le_trans hk hm)
      exact Nat.le_zero.mp (ih ▸ this)
  obtain ⟨j, hj, a, ha, ho⟩ := h.control k (fun j hj => by
    obtain ⟨h1, _, h3, _⟩ := stay j (Nat.le_trans hk hj)
    have := hz' j hj
    refine Or.inl ⟨by rw [h1]; exact hc, ?_⟩
    cases e : (σ j).th <;> simp_all [Th.rank])
  rw [(move j (Nat.le_trans hk hj) a ha).1] at ho
  cases ho

/-- **C46**, poller, `stop` returns: if no `start` has thrown so far and both threads are scheduled, a `stop` that joins returns in the end, the
thread is gone then and `takeEventFromQueue` was not called once more.
Missing: executions in which `start` has thrown, `C46_violation_stop_hangs`. -/
theorem C46_poller_stop_returns_fair_partial (h : Run σ α) {i : Nat} (hc : (σ i).ctl = .joining) (ht : (σ i).threw = false) :
    ∃ j, i ≤ j ∧ (σ j).ctl = .idle ∧ (σ j).started = false ∧ (σ j).th = .absent ∧ (σ j).calls = (σ i).calls := by
  have hi := (h.reach i).inv
  obtain ⟨j, hj, h1, h2, h3, _⟩ := h.joins (Or.inl hc) (hi.stopped (Or.inl hc) ht) (hi.noth ht (by rw [hc]; simp))
  exact ⟨j, hj, (h3 hc).1, (h3 hc).2, h1, h2⟩

/-- **C46**, poller, the destructor returns: if no `start` has thrown so far and both threads are scheduled, a destructor that has begun ends, and
the thread is gone then.
Missing: executions in which `start` has thrown, `C46_violation_stop_hangs`. -/
theorem C46_poller_destructor_returns_fair_partial (h : Run σ α) {i : Nat} (hc : (σ i).ctl = .destroying) (ht : (σ i).threw = false) :
    ∃ j, i ≤ j ∧ (σ j).ctl = .dead ∧ (σ j).th = .absent := by
  have hend : ∃ j, i ≤ j ∧ (σ j).ctl = .joiningD ∧ (σ j).threw = false := by
    apply Classical.byContradiction
    intro hno
    have stay : ∀ j, i ≤ j → (σ j).ctl = .destroying ∧ (σ j).threw = false := by
      intro j hj
      induction hj with
      | refl => exact ⟨hc, ht⟩
      | @step m hm ih =>
        obtain ⟨h1, h2⟩ := ih
        rcases h.next m with ⟨_, e⟩ | ⟨a, _, e⟩
        · rw [e]; exact ⟨h1, h2⟩
        have hno' : ¬ ((σ (m + 1)).ctl = .joiningD ∧ (σ (m + 1)).threw = false) := fun hh => hno ⟨m + 1, Nat.le_succ_of_le hm, hh⟩
        clear hno
        generalize σ (m + 1) = s' at *
        cases a <;> simp only [step] at e <;> (repeat' split at e) <;> (try cases e) <;> simp_all
    obtain ⟨j, hj, a, ha, ho⟩ := h.control i (fun j hj => Or.inr (Or.inr (stay j hj).1))
    have e : step (σ j) a = some (σ (j + 1)) := by have := h.exec j; rw [ha] at this; exact this
    have h1 := stay j hj
    have h2 := stay (j + 1) (Nat.le_succ_of_le hj)
    generalize σ (j + 1) = s' at *
    cases a <;> simp [Act.isThread] at ho <;> simp only [step] at e <;> (repeat' split at e) <;> (try cases e) <;> simp_all
  obtain ⟨k, hk, hkc, hkt⟩ := hend
  have hi := (h.reach k).inv
  obtain ⟨j, hj, h1, _, _, h3⟩ := h.joins (Or.inr hkc) (hi.stopped (Or.inr hkc) hkt) (hi.noth hkt (by rw [hkc]; simp))
  exact ⟨j, Nat.le_trans hk hj, h3 hkc, h1⟩

/-- **C46**, poller, `start` returns or throws: a `start` that waits for its thread does not wait for ever, and it throws only if the thread had not
set the running flag when it gave up. -/
theorem C46_poller_start_ends (h : Run σ α) {i : Nat} (hc : (σ i).ctl = .waiting) :
    ∃ j, i ≤ j ∧ (σ j).ctl = .idle ∧ ((σ j).threw = (σ i).threw ∧ (σ j).running = true ∨ (σ j).threw = true ∧ (σ j).running = false) := by
  apply Classical.byContradiction
  intro hno
  have stay : ∀ j, i ≤ j → (σ j).ctl = .waiting ∧ (σ j).threw = (σ i).threw := by
    intro j hj
    induction hj with
    | refl => exact ⟨hc, rfl⟩
    | @step m hm ih =>
      obtain ⟨h1, h2⟩ := ih
      rcases h.next m with ⟨_, e⟩ | ⟨a, _, e⟩
      · rw [e]; exact ⟨h1, h2⟩
      have hno' := fun hh => hno ⟨m + 1, Nat.le_succ_of_le hm, hh⟩
      clear hno
      generalize (σ i).threw = t0 at *
      generalize σ (m + 1) = s' at *
      cases a <;> simp only [step] at e <;> (repeat' split at e) <;> (try cases e) <;> simp_all
  obtain ⟨j, hj, a, ha, ho⟩ := h.control i (fun j hj => Or.inr (Or.inl (stay j hj).1))
  have e : step (σ j) a = some (σ (j + 1)) := by have := h.exec j; rw [ha] at this; exact this
  have h1 := (stay j hj).1
  have h2 := (stay (j + 1) (Nat.le_succ_of_le hj)).1
  generalize σ (j + 1) = s' at *
  cases a <;> simp [Act.isThread] at ho <;> simp only [step] at e <;> (repeat' split at e) <;> (try cases e) <;> simp_all

/-! ### A fair execution -/

/-- Start, two calls, `stop`, then nothing. -/
def lvScript : List Act := [.callStart, .begin, .seeRunning, .test, .ret, .test, .callStop, .ret, .test, .joined]

def lvσ (i : Nat) : St := (run St.init (lvScript.take i)).getD St.init

def lvα (i : Nat) : Option Act := lvScript[i]?

theorem lv_end {i : Nat} (hi : 10 ≤ i) : lvσ i = ⟨false, false, .absent, .idle, true, 2, false, false⟩ := by
  unfold lvσ
  rw [List.take_of_length_le (by simpa [lvScript] using hi)]
  decide +kernel

/-- The execution satisfies the hypotheses of the liveness theorems, with a `stop` that has to wait for a call at time 7. -/
theorem C46_poller_fair_example : Run lvσ lvα ∧ (lvσ 7).ctl = .joining ∧ (lvσ 7).th = .inCall ∧ (lvσ 7).threw = false ∧
    (lvσ 1).ctl = .waiting := by
  refine ⟨⟨rfl, ?_, ?_, ?_⟩, by decide +kernel, by decide +kernel, by decide +kernel, by decide +kernel⟩
  · intro i
    by_cases hi : i < 10
    · have key : ∀ i < 10, (lvα i).bind (step (lvσ i)) = some (lvσ (i + 1)) := by decide +kernel
      have := key i hi
      cases e : lvα i with
      | none => rw [e] at this; cases this
      | some a => rw [e] at this; exact this
    · have e : lvα i = none := List.getElem?_eq_none (by simp [lvScript]; omega)
      rw [e]
      show lvσ (i + 1) = lvσ i
      rw [lv_end (by omega), lv_end (by omega)]
  · intro i hb
    have := hb (i + 10) (by omega)
    rw [lv_end (by omega)] at this
    simp [ThBusy] at this
  · intro i hb
    have := hb (i + 10) (by omega)
    rw [lv_end (by omega)] at this
    simp [CtlBusy] at this

end Verif.Poller
