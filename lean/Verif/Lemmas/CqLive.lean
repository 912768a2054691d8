import Verif.Spec.CqLive
import Verif.Props.ConcurrentQueue
import Verif.Lemmas.Fair
import Mathlib.Tactic.ByContra

/-! Progress of the middleware on the concurrent queue. -/

namespace Verif.CqP
open Verif Verif.Fair

variable {T : Type} {d : Bool}

/-- What a step does. -/
inductive Eff (d : Bool) (s s' : St T) (a : Act T) : Prop where
  | cq (b : CQ.Act T) (ha : a = .cq b) (hp : byPoller b = true → s.alive = true) (hb : CQ.step d s.cq b = some s'.cq) (hl : s'.alive = s.alive)
  | throw (ha : a = .throw) {y : T} {l : List T} (hh : s.cq.hand = y :: l) (hl : s.alive = true)
      (e : s' = ⟨{ s.cq with hand := [], emitted := s.cq.emitted ++ [y] }, false⟩)
  | restart (ha : a = .restart) (hl : s.alive = false) (e : s' = { s with alive := true })

theorem step_eff {s s' : St T} {a : Act T} (hs : step d s a = some s') : Eff d s s' a := by
  cases a with
  | cq b =>
    simp only [step] at hs
    split at hs
    · cases hs
    next hn =>
    split at hs
    · next c hc =>
      cases hs
      exact .cq b rfl (fun hb => by
        cases h : s.alive with
        | true => rfl
        | false => exact absurd ⟨hb, h⟩ hn) hc rfl
    · cases hs
  | throw =>
    simp only [step] at hs
    split at hs
    · next ha =>
      split at hs
      · next y l hh => cases hs; exact .throw rfl hh ha rfl
      · cases hs
    · cases hs
  | restart =>
    simp only [step] at hs
    split at hs
    · cases hs
    next ha => cases hs; exact .restart rfl (by simpa using ha) rfl

theorem throw_emit {s : CQ.St T} {y : T} {l : List T} (hh : s.hand = y :: l) :
    CQ.step d s .emit = some { s with hand := [], emitted := s.emitted ++ [y] } := by
  simp [CQ.step, hh]

/-- Publishers do not touch what the poller holds and what it has delivered. -/
theorem cq_other {s s' : CQ.St T} {b : CQ.Act T} (hn : byPoller b = false) (hb : CQ.step d s b = some s') :
    s'.hand = s.hand ∧ s'.emitted = s.emitted := by
  cases b <;> first | cases hn; done | skip
  all_goals (simp only [CQ.step] at hb; (repeat' split at hb) <;> first | cases hb; done | skip)
  all_goals (injection hb with hb; subst hb; exact ⟨rfl, rfl⟩)

structure Inv (d : Bool) (s : St T) : Prop where
  cq : CQ.Inv d s.cq
  dead : s.alive = false → s.cq.hand = []

theorem Inv.step {s s' : St T} {a : Act T} (hi : Inv d s) (hs : CqP.step d s a = some s') : Inv d s' := by
  cases step_eff hs with
  | cq b ha hp hb hl =>
    refine ⟨hi.cq.step hb, fun h => ?_⟩
    rw [hl] at h
    cases hx : byPoller b with
    | true => exact absurd (hp hx) (by simp [h])
    | false => rw [(cq_other hx hb).1]; exact hi.dead h
  | throw ha hh hl e => subst e; exact ⟨hi.cq.step (throw_emit hh), fun _ => rfl⟩
  | restart ha hl e => subst e; exact ⟨hi.cq, nofun⟩

theorem Reach.inv {s : St T} (h : Reach d s) : Inv d s := by
  induction h with
  | init => exact ⟨CQ.Inv.init _, nofun⟩
  | step _ _ hs ih => exact ih.step hs

/-- Histories only grow. -/
theorem cq_mono {s s' : CQ.St T} {b : CQ.Act T} (hb : CQ.step d s b = some s') :
    s.taken <+: s'.taken ∧ s.published <+: s'.published ∧ s.emitted <+: s'.emitted := by
  cases b <;> simp only [CQ.step] at hb <;> (repeat' split at hb) <;> first | cases hb | skip
  all_goals (refine ⟨?_, ?_, ?_⟩ <;> first | exact List.prefix_refl _ | exact List.prefix_append _ _)

variable {σ : Nat → St T} {α : Nat → Option (Act T)}

theorem Run.next (h : Run d σ α) (i : Nat) : (α i = none ∧ σ (i + 1) = σ i) ∨ ∃ a, α i = some a ∧ step d (σ i) a = some (σ (i + 1)) := by
  have := h.exec i
  cases ha : α i with
  | none => rw [ha] at this; exact Or.inl ⟨rfl, this⟩
  | some a => rw [ha] at this; exact Or.inr ⟨a, rfl, this⟩

theorem Run.reach (h : Run d σ α) (i : Nat) : Reach d (σ i) := by
  induction i with
  | zero => exact h.start
  | succ i ih =>
    rcases h.next i with ⟨_, e⟩ | ⟨a, _, e⟩
    · rw [e]; exact ih
    · exact .step ih (h.calm i) e

theorem Run.inv (h : Run d σ α) (i : Nat) : Inv d (σ i) := (h.reach i).inv

theorem Run.mono1 (h : Run d σ α) (i : Nat) :
    (σ i).cq.taken <+: (σ (i + 1)).cq.taken ∧ (σ i).cq.published <+: (σ (i + 1)).cq.published ∧ (σ i).cq.emitted <+: (σ (i + 1)).cq.emitted := by
  rcases h.next i with ⟨_, e⟩ | ⟨a, _, e⟩
  · rw [e]; exact ⟨List.prefix_refl _, List.prefix_refl _, List.prefix_refl _⟩
  · cases step_eff e with
    | cq b ha hp hb hl => exact cq_mono hb
    | throw ha hh hl e => rw [e]; exact ⟨List.prefix_refl _, List.prefix_refl _, List.prefix_append _ _⟩
    | restart ha hl e => rw [e]; exact ⟨List.prefix_refl _, List.prefix_refl _, List.prefix_refl _⟩

theorem Run.mono (h : Run d σ α) {i j : Nat} (hij : i ≤ j) :
    (σ i).cq.taken <+: (σ j).cq.taken ∧ (σ i).cq.published <+: (σ j).cq.published ∧ (σ i).cq.emitted <+: (σ j).cq.emitted := by
  induction hij with
  | refl => exact ⟨List.prefix_refl _, List.prefix_refl _, List.prefix_refl _⟩
  | step _ ih =>
    obtain ⟨a, b, c⟩ := ih
    obtain ⟨a', b', c'⟩ := h.mono1 _
    exact ⟨a.trans a', b.trans b', c.trans c'⟩

theorem PollAlive.on (h : Run d σ α) {i : Nat} (ha : PollAlive σ α i) {j : Nat} (hj : i ≤ j) : (σ j).alive = true := by
  induction hj with
  | refl => exact ha.running
  | step hm ih =>
    rename_i k
    show (σ (k + 1)).alive = true
    rcases h.next k with ⟨_, e⟩ | ⟨a, h1, e⟩
    · rw [e]; exact ih
    · cases step_eff e with
      | cq _ _ _ _ hl => rw [hl]; exact ih
      | throw hx _ _ _ => subst hx; exact absurd h1 (ha.calm _ hm)
      | restart _ _ e => rw [e]

theorem PollAlive.later (h : Run d σ α) {i : Nat} (ha : PollAlive σ α i) {j : Nat} (hj : i ≤ j) : PollAlive σ α j :=
  ⟨ha.on h hj, fun k hk => ha.calm k (Nat.le_trans hj hk), ha.fair, ha.honest⟩

theorem PollAlive.turns (h : Run d σ α) {i : Nat} (ha : PollAlive σ α i) (k : Nat) (hk : i ≤ k) : ∃ j, k ≤ j ∧ ∃ a, α j = some a ∧ PollTurn a :=
  ha.fair k fun _ hj => ha.on h (Nat.le_trans hk hj)

/-- The poller goes on asking the queue. -/
theorem PollAlive.polls (h : Run d σ α) {i : Nat} (ha : PollAlive σ α i) (k : Nat) (hk : i ≤ k) : ∃ j, k ≤ j ∧ ∃ b, α j = some (.cq (.poll b)) := by
  by_contra hno
  -- from `k` on only `emit` steps of the poller
  obtain ⟨j, hj, a, h1, h2⟩ := ha.turns h k hk
  have he : ∀ j, k ≤ j → ∀ a, α j = some a → PollTurn a → a = .cq .emit := by
    intro j hj a h1 h2
    unfold PollTurn at h2
    split at h2
    · next b => exact absurd ⟨j, hj, b, h1⟩ hno
    · rfl
    · exact absurd h2 id
  -- the hand is empty after the first one and stays so
  have hempty : ∀ m, j + 1 ≤ m → (σ m).cq.hand = [] := by
    intro m hm
    induction hm with
    | refl =>
      have h3 := he j hj a h1 h2
      subst h3
      rcases h.next j with ⟨e, _⟩ | ⟨a', e1, e2⟩
      · rw [h1] at e; cases e
      · rw [h1] at e1; cases e1
        cases step_eff e2 with
        | cq b hx _ hb _ =>
          cases hx
          simp only [CQ.step] at hb
          split at hb
          · injection hb with hb; rw [← hb]
          · cases hb
        | throw hx => cases hx
        | restart hx => cases hx
    | step hm ih =>
      rename_i m
      have hkm : k ≤ m := by have : j + 1 ≤ m := hm; omega
      rcases h.next m with ⟨_, e⟩ | ⟨a', e1, e2⟩
      · show (σ (m + 1)).cq.hand = []; rw [e]; exact ih
      · cases step_eff e2 with
        | cq b hx hp hb _ =>
          subst hx
          show (σ (m + 1)).cq.hand = []
          cases hy : byPoller b with
          | false => rw [(cq_other hy hb).1]; exact ih
          | true =>
          cases b with
          | poll b => exact absurd ⟨m, hkm, b, e1⟩ hno
          | emit => simp only [CQ.step, ih] at hb; cases hb
          | publish => cases hy
          | account => cases hy
          | enq => cases hy
          | rem => cases hy
        | throw hx hh => rw [ih] at hh; cases hh
        | restart _ _ e => show (σ (m + 1)).cq.hand = []; rw [e]; exact ih
  obtain ⟨m, hm, a', g1, g2⟩ := ha.turns h (j + 1) (by omega)
  have g3 := he m (by omega) a' g1 g2
  subst g3
  rcases h.next m with ⟨e, _⟩ | ⟨a'', e1, e2⟩
  · rw [g1] at e; cases e
  · rw [g1] at e1; cases e1
    cases step_eff e2 with
    | cq b hx _ hb _ => cases hx; simp only [CQ.step, hempty m hm] at hb; cases hb
    | throw hx => cases hx
    | restart hx => cases hx

/-- The number of accepted events is the number of those that left the queue and those in it. -/
theorem Run.len (h : Run d σ α) (i : Nat) : (σ i).cq.published.length = (σ i).cq.taken.length + (σ i).cq.q.length := by
  rw [(h.inv i).cq.split]; simp

theorem Run.drain1 (h : Run d σ α) {i : Nat} (ha : PollAlive σ α i) (hq : (σ i).cq.taken.length < (σ i).cq.published.length) :
    ∃ j, i ≤ j ∧ (σ i).cq.taken.length < (σ j).cq.taken.length := by
  by_contra hno
  have hc : ∀ j, i ≤ j → (σ j).cq.taken.length ≤ (σ i).cq.taken.length := fun j hj => by
    by_contra hl; exact hno ⟨j, hj, by omega⟩
  have hne : ∀ j, i ≤ j → (σ j).cq.q ≠ [] := by
    intro j hj he
    have h1 := h.len j
    have h2 := (h.mono hj).2.1.length_le
    have h3 := hc j hj
    rw [he] at h1
    simp at h1
    omega
  obtain ⟨j, hj, e1⟩ := ha.honest i hne (fun l hl => ha.polls h l hl)
  rcases h.next j with ⟨e, _⟩ | ⟨a, e2, e3⟩
  · rw [e1] at e; cases e
  · rw [e1] at e2; cases e2
    cases step_eff e3 with
    | cq b hx _ hb _ =>
      cases hx
      simp only [CQ.step] at hb
      split at hb
      · next y q hh hs hq' =>
        injection hb with hb
        have h3 := hc (j + 1) (by omega)
        have h4 := (h.mono hj).1.length_le
        rw [← hb] at h3
        simp at h3
        omega
      · next hh hs =>
        cases hq' : (σ j).cq.q with
        | nil => exact hne j hj hq'
        | cons y q => exact hs _ _ rfl hq'
      · cases hb
    | throw hx => cases hx
    | restart hx => cases hx

/-- The poller, with or without the help of publishers, empties the queue of what is in it. -/
theorem Run.drain (h : Run d σ α) {i : Nat} (ha : PollAlive σ α i) (N : Nat) (hN : N ≤ (σ i).cq.published.length) :
    ∃ j, i ≤ j ∧ N ≤ (σ j).cq.taken.length := by
  have key : ∀ m k, i ≤ k → N - (σ k).cq.taken.length ≤ m → ∃ j, i ≤ j ∧ N ≤ (σ j).cq.taken.length := by
    intro m
    induction m with
    | zero => exact fun k hk hm => ⟨k, hk, by omega⟩
    | succ m ih =>
      intro k hk hm
      by_cases hd : N ≤ (σ k).cq.taken.length
      · exact ⟨k, hk, hd⟩
      have := (h.mono hk).2.1.length_le
      obtain ⟨j, hj, hl⟩ := h.drain1 (ha.later h hk) (by omega)
      exact ih j (Nat.le_trans hk hj) (by omega)
  exact key _ i (Nat.le_refl _) (Nat.le_refl _)

/-- What the poller has taken reaches the listeners. -/
theorem Run.emits (h : Run d σ α) {i : Nat} (ha : PollAlive σ α i) :
    ∃ j, i ≤ j ∧ (σ i).cq.emitted ++ (σ i).cq.hand <+: (σ j).cq.emitted := by
  cases hh : (σ i).cq.hand with
  | nil => exact ⟨i, Nat.le_refl _, by simp⟩
  | cons y l =>
    have h1 := (h.inv i).cq.hand1
    have hl : l = [] := by
      rw [hh] at h1
      cases l with
      | nil => rfl
      | cons => simp at h1
    subst hl
    by_contra hno
    -- the hand stays as it is
    have stay : ∀ m, i ≤ m → (σ m).cq.hand = [y] ∧ (σ m).cq.emitted = (σ i).cq.emitted := by
      intro m hm
      induction hm with
      | refl => exact ⟨hh, rfl⟩
      | step hm ih =>
        rename_i m
        have hne : ¬ (σ i).cq.emitted ++ [y] <+: (σ (m + 1)).cq.emitted := fun hp => hno ⟨m + 1, Nat.le_succ_of_le hm, hp⟩
        show (σ (m + 1)).cq.hand = [y] ∧ (σ (m + 1)).cq.emitted = (σ i).cq.emitted
        rcases h.next m with ⟨_, e⟩ | ⟨a', e1, e2⟩
        · rw [e]; exact ih
        · cases step_eff e2 with
          | cq b hx hp hb _ =>
            subst hx
            cases hy : byPoller b with
            | false => obtain ⟨g1, g2⟩ := cq_other hy hb; rw [g1, g2]; exact ih
            | true =>
            cases b with
            | poll b => simp [CQ.step, ih.1] at hb
            | emit =>
              simp only [CQ.step, ih.1] at hb
              injection hb with hb
              rw [← hb, ih.2] at hne
              exact absurd (List.prefix_refl _) hne
            | publish => cases hy
            | account => cases hy
            | enq => cases hy
            | rem => cases hy
          | throw hx => subst hx; exact absurd e1 (ha.calm m hm)
          | restart _ _ e => rw [e]; exact ih
    obtain ⟨m, hm, b, e1⟩ := ha.polls h i (Nat.le_refl _)
    rcases h.next m with ⟨e, _⟩ | ⟨a, e2, e3⟩
    · rw [e1] at e; cases e
    · rw [e1] at e2; cases e2
      cases step_eff e3 with
      | cq b hx _ hb _ => cases hx; simp [CQ.step, (stay m hm).1] at hb
      | throw hx => cases hx
      | restart hx => cases hx

/-! ### Publishers -/

/-- While thread `t` is about to enqueue and there is no race on the token, only `t` itself can make the queue longer. -/
theorem cq_blocked {s s' : CQ.St T} {b : CQ.Act T} {t : Nat} {x : T} {n : Nat} (hp : s.pc t = .enq x n) (hr : ¬ s.TokenRace)
    (hb : CQ.step false s b = some s') (hn : b ≠ .enq t true) : s'.pc t = .enq x n ∧ s'.published = s.published := by
  cases b with
  | enq u ok =>
    simp only [CQ.step] at hb
    split at hb
    · next y e hu =>
      have hut : u = t := by
        by_contra hne
        exact hr ⟨t, u, x, n, y, e, Ne.symm hne, hp, hu⟩
      subst hut
      rw [hp] at hu
      cases hu
      split at hb
      · next hok => rw [hok] at hn; exact absurd rfl hn
      · injection hb with hb; rw [← hb]; exact ⟨by simp, rfl⟩
    · cases hb
  | publish u y =>
    simp only [CQ.step] at hb
    split at hb
    · next hu =>
      have : t ≠ u := by intro e; subst e; rw [hp] at hu; cases hu
      injection hb with hb; rw [← hb]; exact ⟨(upd_other _ _ this).trans hp, rfl⟩
    · cases hb
  | rem u ok =>
    simp only [CQ.step] at hb
    split at hb
    · next y e hu =>
      have : t ≠ u := by intro e; subst e; rw [hp] at hu; cases hu
      split at hb <;> (injection hb with hb; rw [← hb]; exact ⟨(upd_other _ _ this).trans hp, rfl⟩)
    · cases hb
  | account u =>
    simp only [CQ.step] at hb
    split at hb
    · next e hu =>
      have : t ≠ u := by intro e; subst e; rw [hp] at hu; cases hu
      injection hb with hb; rw [← hb]; exact ⟨(upd_other _ _ this).trans hp, rfl⟩
    · cases hb
  | poll ok =>
    simp only [CQ.step] at hb
    (repeat' split at hb) <;> first | cases hb; done | (injection hb with hb; rw [← hb]; exact ⟨hp, rfl⟩)
  | emit =>
    simp only [CQ.step] at hb
    (repeat' split at hb) <;> first | cases hb; done | (injection hb with hb; rw [← hb]; exact ⟨hp, rfl⟩)

/-- A successful `try_enqueue` of thread `t`. -/
theorem Run.accepted (h : Run d σ α) {j t : Nat} (e : α j = some (.cq (.enq t true))) {x : T} (ht : (σ j).Trying t x) :
    (σ (j + 1)).cq.published = (σ j).cq.published ++ [x] ∧ ∃ n, (σ (j + 1)).cq.pc t = if d then .acct n else .idle := by
  rcases h.next j with ⟨e', _⟩ | ⟨a, e2, e3⟩
  · rw [e] at e'; cases e'
  · rw [e] at e2; cases e2
    cases step_eff e3 with
    | cq b hx _ hb _ =>
      cases hx
      simp only [CQ.step] at hb
      split at hb
      · next y n hy =>
        obtain ⟨m, hm | hm⟩ := ht
        · rw [hy] at hm; cases hm
          simp only [if_true] at hb
          injection hb with hb
          rw [← hb]
          exact ⟨rfl, n, by simp⟩
        · rw [hy] at hm; cases hm
      · cases hb
    | throw hx => cases hx
    | restart hx => cases hx

/-- Thread `t` in the loop of a discarding `publish`, and nobody else enqueues. -/
theorem cq_loop {s s' : CQ.St T} {b : CQ.Act T} {t : Nat} {x : T} (hp : ∃ n, s.pc t = .enq x n ∨ s.pc t = .rem x n)
    (hb : CQ.step true s b = some s') (hn : ∀ u, b ≠ .enq u true) :
    (∃ n, s'.pc t = .enq x n ∨ s'.pc t = .rem x n) ∧ s'.q.length ≤ s.q.length := by
  have oth : ∀ (u : Nat) (p : CQ.Pc T), t ≠ u → ∃ n, upd s.pc u p t = .enq x n ∨ upd s.pc u p t = .rem x n := by
    intro u p hu; rw [upd_other _ _ hu]; exact hp
  cases b with
  | enq u ok =>
    simp only [CQ.step] at hb
    split at hb
    · next y e hu =>
      split at hb
      · next hok => rw [hok] at hn; exact absurd rfl (hn u)
      · injection hb with hb; rw [← hb]
        refine ⟨?_, Nat.le_refl _⟩
        by_cases htu : t = u
        · subst htu
          obtain ⟨n, hp | hp⟩ := hp
          · rw [hp] at hu; cases hu; exact ⟨e, Or.inr (by simp)⟩
          · rw [hp] at hu; cases hu
        · exact oth u _ htu
    · cases hb
  | publish u y =>
    simp only [CQ.step] at hb
    split at hb
    · next hu =>
      have : t ≠ u := by intro e; subst e; obtain ⟨n, hp | hp⟩ := hp <;> (rw [hp] at hu; cases hu)
      injection hb with hb; rw [← hb]; exact ⟨oth u _ this, Nat.le_refl _⟩
    · cases hb
  | rem u ok =>
    simp only [CQ.step] at hb
    split at hb
    · next y e hu =>
      have key : ∀ m, ∃ n, upd s.pc u (.enq y m) t = .enq x n ∨ upd s.pc u (.enq y m) t = .rem x n := by
        intro m
        by_cases htu : t = u
        · subst htu
          obtain ⟨n, hp | hp⟩ := hp
          · rw [hp] at hu; cases hu
          · rw [hp] at hu; cases hu; exact ⟨m, Or.inl (by simp)⟩
        · exact oth u _ htu
      split at hb
      · next z q hq hz => injection hb with hb; rw [← hb]; refine ⟨key _, ?_⟩; simp [hz]
      · injection hb with hb; rw [← hb]; exact ⟨key _, Nat.le_refl _⟩
    · cases hb
  | account u =>
    simp only [CQ.step] at hb
    split at hb
    · next e hu =>
      have : t ≠ u := by intro e; subst e; obtain ⟨n, hp | hp⟩ := hp <;> (rw [hp] at hu; cases hu)
      injection hb with hb; rw [← hb]; exact ⟨oth u _ this, Nat.le_refl _⟩
    · cases hb
  | poll ok =>
    simp only [CQ.step] at hb
    split at hb
    · next z q hq hz => injection hb with hb; rw [← hb]; refine ⟨hp, ?_⟩; simp [hz]
    · injection hb with hb; rw [← hb]; exact ⟨hp, Nat.le_refl _⟩
    · cases hb
  | emit =>
    simp only [CQ.step] at hb
    (repeat' split at hb) <;> first | cases hb; done | (injection hb with hb; rw [← hb]; exact ⟨hp, Nat.le_refl _⟩)

theorem Run.stay_loop (h : Run true σ α) {i t : Nat} {x : T} (hp : (σ i).Trying t x)
    (hno : ∀ j, i ≤ j → ∀ u, α j ≠ some (.cq (.enq u true))) {j : Nat} (hj : i ≤ j) {k : Nat} (hk : j ≤ k) :
    (σ k).Trying t x ∧ (σ k).cq.q.length ≤ (σ j).cq.q.length := by
  have step1 : ∀ m, i ≤ m → (σ m).Trying t x → (σ (m + 1)).Trying t x ∧ (σ (m + 1)).cq.q.length ≤ (σ m).cq.q.length := by
    intro m hm ih
    rcases h.next m with ⟨_, e⟩ | ⟨a, e1, e2⟩
    · rw [e]; exact ⟨ih, Nat.le_refl _⟩
    · cases step_eff e2 with
      | cq b hx _ hb _ =>
        subst hx
        exact cq_loop ih hb (fun u e => hno m hm u (by rw [e1, e]))
      | throw _ _ _ e => rw [e]; exact ⟨ih, Nat.le_refl _⟩
      | restart _ _ e => rw [e]; exact ⟨ih, Nat.le_refl _⟩
  have try' : ∀ m, i ≤ m → (σ m).Trying t x := by
    intro m hm
    induction hm with
    | refl => exact hp
    | step hm ih => exact (step1 _ hm ih).1
  refine ⟨try' k (Nat.le_trans hj hk), ?_⟩
  induction hk with
  | refl => exact Nat.le_refl _
  | step hk ih => exact Nat.le_trans (step1 _ (Nat.le_trans hj hk) (try' _ (Nat.le_trans hj hk))).2 ih

/-- In the loop of a discarding `publish` both calls of the queue come again and again. -/
theorem Run.loops (h : Run true σ α) {i t : Nat} {x : T} (hp : (σ i).Trying t x) (hf : TryFair t σ α)
    (hno : ∀ j, i ≤ j → ∀ u, α j ≠ some (.cq (.enq u true))) (k : Nat) (hk : i ≤ k) :
    (∃ j, k ≤ j ∧ ∃ b, α j = some (.cq (.enq t b))) ∧ ∃ j, k ≤ j ∧ ∃ b, α j = some (.cq (.rem t b)) := by
  have turn : ∀ k, i ≤ k → ∃ j, k ≤ j ∧ ∃ a, α j = some a ∧ TryTurn t a := fun k hk =>
    hf.fair k fun j hj => ⟨x, (h.stay_loop hp hno (Nat.le_refl i) (Nat.le_trans hk hj)).1⟩
  -- steps of others do not move `t`
  have keep : ∀ m, i ≤ m → (∀ b, α m ≠ some (.cq (.enq t b))) → (∀ b, α m ≠ some (.cq (.rem t b))) → (σ (m + 1)).cq.pc t = (σ m).cq.pc t := by
    intro m hm h1 h2
    have ht := (h.stay_loop hp hno (Nat.le_refl i) hm).1
    have hni : (σ m).cq.pc t ≠ .idle := by
      obtain ⟨n, e | e⟩ := ht <;> rw [e] <;> nofun
    have hna : ∀ n, (σ m).cq.pc t ≠ .acct n := by
      intro l; obtain ⟨n, e | e⟩ := ht <;> rw [e] <;> nofun
    rcases h.next m with ⟨_, e⟩ | ⟨a, e1, e2⟩
    · rw [e]
    · cases step_eff e2 with
      | cq b hx _ hb _ =>
        subst hx
        cases b with
        | enq u ok =>
          have : t ≠ u := fun e => h1 ok (by rw [e1, e])
          simp only [CQ.step] at hb
          (repeat' split at hb) <;> first | cases hb; done | (injection hb with hb; rw [← hb]; exact upd_other _ _ this)
        | rem u ok =>
          have : t ≠ u := fun e => h2 ok (by rw [e1, e])
          simp only [CQ.step] at hb
          (repeat' split at hb) <;> first | cases hb; done | (injection hb with hb; rw [← hb]; exact upd_other _ _ this)
        | publish u y =>
          simp only [CQ.step] at hb
          split at hb
          · next hu =>
            have : t ≠ u := by intro e; subst e; exact hni hu
            injection hb with hb; rw [← hb]; exact upd_other _ _ this
          · cases hb
        | account u =>
          simp only [CQ.step] at hb
          split at hb
          · next hu =>
            have : t ≠ u := by intro e; subst e; exact hna _ hu
            injection hb with hb; rw [← hb]; exact upd_other _ _ this
          · cases hb
        | poll ok =>
          simp only [CQ.step] at hb
          (repeat' split at hb) <;> first | cases hb; done | (injection hb with hb; rw [← hb])
        | emit =>
          simp only [CQ.step] at hb
          (repeat' split at hb) <;> first | cases hb; done | (injection hb with hb; rw [← hb])
      | throw _ _ _ e => rw [e]
      | restart _ _ e => rw [e]
  -- after a refused `try_enqueue` comes a removal and the other way round
  have afterEnq : ∀ m b, i ≤ m → α m = some (.cq (.enq t b)) → ∃ n, (σ (m + 1)).cq.pc t = .rem x n := by
    intro m b hm e
    have hb' : b = false := by
      cases b with
      | true => exact absurd e (hno m hm t)
      | false => rfl
    subst hb'
    have ht := (h.stay_loop hp hno (Nat.le_refl i) hm).1
    rcases h.next m with ⟨e', _⟩ | ⟨a, e2, e3⟩
    · rw [e] at e'; cases e'
    · rw [e] at e2; cases e2
      cases step_eff e3 with
      | cq b hx _ hb _ =>
        cases hx
        simp only [CQ.step] at hb
        split at hb
        · next y n hy =>
          obtain ⟨l, hl | hl⟩ := ht
          · rw [hy] at hl; cases hl
            simp only [Bool.false_eq_true, if_false, if_true] at hb
            injection hb with hb
            exact ⟨n, by rw [← hb]; simp⟩
          · rw [hy] at hl; cases hl
        · cases hb
      | throw hx => cases hx
      | restart hx => cases hx
  have afterRem : ∀ m b, i ≤ m → α m = some (.cq (.rem t b)) → ∃ n, (σ (m + 1)).cq.pc t = .enq x n := by
    intro m b hm e
    have ht := (h.stay_loop hp hno (Nat.le_refl i) hm).1
    rcases h.next m with ⟨e', _⟩ | ⟨a, e2, e3⟩
    · rw [e] at e'; cases e'
    · rw [e] at e2; cases e2
      cases step_eff e3 with
      | cq b hx _ hb _ =>
        cases hx
        simp only [CQ.step] at hb
        split at hb
        · next y n hy =>
          obtain ⟨l, hl | hl⟩ := ht
          · rw [hy] at hl; cases hl
          · rw [hy] at hl; cases hl
            split at hb <;> (injection hb with hb; exact ⟨_, by rw [← hb]; exact upd_same _ _ _⟩)
        · cases hb
      | throw hx => cases hx
      | restart hx => cases hx
  have cases_turn : ∀ a : Act T, TryTurn t a → (∃ b, a = .cq (.enq t b)) ∨ ∃ b, a = .cq (.rem t b) := by
    intro a ha
    unfold TryTurn at ha
    split at ha
    · subst ha; exact Or.inl ⟨_, rfl⟩
    · subst ha; exact Or.inr ⟨_, rfl⟩
    · exact absurd ha id
  constructor
  · by_contra hno1
    have h1 : ∀ j, k ≤ j → ∀ b, α j ≠ some (.cq (.enq t b)) := fun j hj b e => hno1 ⟨j, hj, b, e⟩
    obtain ⟨j, hj, a, e, ha⟩ := turn k hk
    rcases cases_turn a ha with ⟨b, rfl⟩ | ⟨b, rfl⟩
    · exact h1 j hj b e
    obtain ⟨n, hn⟩ := afterRem j b (Nat.le_trans hk hj) e
    have stay : ∀ m, j + 1 ≤ m → (σ m).cq.pc t = .enq x n := by
      intro m hm
      induction hm with
      | refl => exact hn
      | step hm ih =>
        rename_i m
        have hm' : j + 1 ≤ m := hm
        show (σ (m + 1)).cq.pc t = _
        rw [keep m (by omega) (h1 m (by omega)), ih]
        intro b e
        rcases h.next m with ⟨e', _⟩ | ⟨a, e2, e3⟩
        · rw [e] at e'; cases e'
        · rw [e] at e2; cases e2
          cases step_eff e3 with
          | cq b hx _ hb _ => cases hx; simp [CQ.step, ih] at hb
          | throw hx => cases hx
          | restart hx => cases hx
    obtain ⟨m, hm, a, e', ha⟩ := turn (j + 1) (by omega)
    rcases cases_turn a ha with ⟨b', rfl⟩ | ⟨b', rfl⟩
    · exact h1 m (by omega) b' e'
    · rcases h.next m with ⟨e'', _⟩ | ⟨a, e2, e3⟩
      · rw [e'] at e''; cases e''
      · rw [e'] at e2; cases e2
        cases step_eff e3 with
        | cq b hx _ hb _ => cases hx; simp [CQ.step, stay m hm] at hb
        | throw hx => cases hx
        | restart hx => cases hx
  · by_contra hno1
    have h1 : ∀ j, k ≤ j → ∀ b, α j ≠ some (.cq (.rem t b)) := fun j hj b e => hno1 ⟨j, hj, b, e⟩
    obtain ⟨j, hj, a, e, ha⟩ := turn k hk
    rcases cases_turn a ha with ⟨b, rfl⟩ | ⟨b, rfl⟩
    swap
    · exact h1 j hj b e
    obtain ⟨n, hn⟩ := afterEnq j b (Nat.le_trans hk hj) e
    have stay : ∀ m, j + 1 ≤ m → (σ m).cq.pc t = .rem x n := by
      intro m hm
      induction hm with
      | refl => exact hn
      | step hm ih =>
        rename_i m
        have hm' : j + 1 ≤ m := hm
        show (σ (m + 1)).cq.pc t = _
        rw [keep m (by omega) ?_ (h1 m (by omega)), ih]
        intro b e
        rcases h.next m with ⟨e', _⟩ | ⟨a, e2, e3⟩
        · rw [e] at e'; cases e'
        · rw [e] at e2; cases e2
          cases step_eff e3 with
          | cq b hx _ hb _ => cases hx; simp [CQ.step, ih] at hb
          | throw hx => cases hx
          | restart hx => cases hx
    obtain ⟨m, hm, a, e', ha⟩ := turn (j + 1) (by omega)
    rcases cases_turn a ha with ⟨b', rfl⟩ | ⟨b', rfl⟩
    swap
    · exact h1 m (by omega) b' e'
    · rcases h.next m with ⟨e'', _⟩ | ⟨a, e2, e3⟩
      · rw [e'] at e''; cases e''
      · rw [e'] at e2; cases e2
        cases step_eff e3 with
        | cq b hx _ hb _ => cases hx; simp [CQ.step, stay m hm] at hb
        | throw hx => cases hx
        | restart hx => cases hx

/-- A discarding publisher that is alone empties the queue and is accepted. -/
theorem Run.loop_ends (h : Run true σ α) {i t : Nat} {x : T} (hp : (σ i).Trying t x) (hf : TryFair t σ α)
    (hno : ∀ j, i ≤ j → ∀ u, α j ≠ some (.cq (.enq u true))) : False := by
  have hl := fun k hk => h.loops hp hf hno k hk
  have empties : ∃ k, i ≤ k ∧ (σ k).cq.q = [] := by
    by_contra hne
    have hne' : ∀ j, i ≤ j → (σ j).cq.q ≠ [] := fun j hj e => hne ⟨j, hj, e⟩
    have key : ∀ m k, i ≤ k → (σ k).cq.q.length ≤ m → False := by
      intro m
      induction m with
      | zero => exact fun k hk hm => hne' k hk (List.eq_nil_of_length_eq_zero (by omega))
      | succ m ih =>
        intro k hk hm
        obtain ⟨j, hj, e⟩ := hf.honest k (fun j hj => hne' j (Nat.le_trans hk hj)) (fun l hl' => (hl l (Nat.le_trans hk hl')).2)
        have h1 := (h.stay_loop hp hno hk hj).2
        refine ih (j + 1) (by omega) ?_
        rcases h.next j with ⟨e', _⟩ | ⟨a, e2, e3⟩
        · rw [e] at e'; cases e'
        · rw [e] at e2; cases e2
          cases step_eff e3 with
          | cq b hx _ hb _ =>
            cases hx
            simp only [CQ.step] at hb
            split at hb
            · split at hb
              · next z q _ hz =>
                injection hb with hb; rw [← hb]
                rw [hz] at h1; simp at h1 ⊢; omega
              · next hs =>
                cases hz : (σ j).cq.q with
                | nil => exact absurd hz (hne' j (by omega))
                | cons y q => exact absurd hz (hs _ _ rfl)
            · cases hb
          | throw hx => cases hx
          | restart hx => cases hx
    exact key _ i (Nat.le_refl _) (Nat.le_refl _)
  obtain ⟨k, hk, hq⟩ := empties
  obtain ⟨j, hj, e⟩ := hf.accepts k
    (fun j hj => List.eq_nil_of_length_eq_zero (by have := (h.stay_loop hp hno hk hj).2; rw [hq] at this; simpa using this))
    (fun l hl' => (hl l (Nat.le_trans hk hl')).1)
  exact hno j (Nat.le_trans hk hj) t e

end Verif.CqP
