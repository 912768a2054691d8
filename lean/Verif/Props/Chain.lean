import Verif.Lemmas.Chain

/-!
C66: processors that depend on other processors.

The specification is in terms of what a user sees: which handlers have been called (`started`) and have come to an end (`ended`) for
which events, and what an event holds while a handler looks at it.
-/

namespace Verif.Chain
open Verif Verif.Disr

variable {V : Type}

/-- Processor `q` is tracked by the barrier of `p`, directly or through other processors. -/
inductive Upstream (cfg : Cfg) (q : Nat) : Nat → Prop where
  | direct {p} : q ∈ cfg.deps p → Upstream cfg q p
  | through {r p} : Upstream cfg q r → r ∈ cfg.deps p → Upstream cfg q p

theorem Upstream.seq_le {cfg : Cfg} {s : St V} (h : Inv cfg s) {q p : Nat} (hu : Upstream cfg q p) : s.seq p ≤ s.seq q := by
  induction hu with
  | direct hd => exact h.seq_dep _ _ hd
  | through _ hd ih => have := h.seq_dep _ _ hd; omega

/-- How far a processor has looked: what it is working on is behind everything upstream of it. -/
theorem Upstream.av_le {cfg : Cfg} {s : St V} (h : Inv cfg s) {q p : Nat} (hu : Upstream cfg q p) {nx av : Int}
    (hp : s.cp p = .handle nx av) : nx ≤ s.seq q := by
  have hc := h.cons p
  rw [hp] at hc
  cases hu with
  | direct hd => have := hc.2.2.2 q hd; have := hc.2.1; omega
  | through hu hd => have := hc.2.2.2 _ hd; have := hc.2.1; have := hu.seq_le h; omega

/-- The events a handler has been called for, in the order of the calls. -/
def calls (s : St V) (p : Nat) : List Int := (s.started p).reverse

/-- The events a handler is done with, in that order. -/
def finished (s : St V) (p : Nat) : List Int := (s.ended p).reverse

/-- **C66**.  Processors were registered before the first claim.  Whenever the handler of a processor has been called for an event,
the handler of every processor it depends on, directly or through others, has come to an end for that event. -/
theorem C66_after_dependencies {cfg : Cfg} (hk : cfg.k ≤ 30) {v : V} {s : St V} (hr : Reach cfg v s) (hl : s.late = false)
    {q p : Nat} (hu : Upstream cfg q p) (hq : cfg.noop q = false) {x : Int} (hx : x ∈ calls s p) : x ∈ finished s q := by
  have h := hr.inv hk hl
  simp only [calls, finished, List.mem_reverse] at hx ⊢
  have hp := h.hist p
  have hq' := h.hist q
  unfold HInv at hp hq'
  rw [if_neg (by simp [hq])] at hq'
  rw [hq'.1, mem_down]
  have hle := hu.seq_le h
  have posq : s.seq q < (s.cp q).pos (s.seq q) := by
    have hc := h.cons q
    cases e : s.cp q <;> rw [e] at hc <;> simp only [CInv, CPc.pos] at hc ⊢ <;> omega
  have hge := h.seq_ge q
  have key : 0 ≤ x ∧ x ≤ s.seq q := by
    split at hp
    · rw [hp.1] at hx; cases hx
    · have hc := h.cons p
      have hgp := h.seq_ge p
      obtain ⟨h1, h2⟩ := hp
      have hav : ∀ nx av, s.cp p = .batch nx av → av ≤ s.seq q := by
        intro nx av e
        rw [e] at hc
        cases hu with
        | direct hd => exact hc.2.2.2 q hd
        | through hu hd => have := hc.2.2.2 _ hd; have := hu.seq_le h; omega
      cases e : s.cp p with
      | handle nx av =>
        simp only [e] at h2
        rw [h2] at hx
        have := hu.av_le h e
        rw [e] at hc h1
        have := hc.1
        rcases List.mem_cons.mp hx with e' | e'
        · omega
        · rw [h1, mem_down] at e'; simp only [CPc.pos] at e'; omega
      | batch nx av =>
        simp only [e] at h2
        rw [h2, h1, mem_down, e] at hx
        simp only [CPc.pos] at hx
        have := hav nx av e
        rw [e] at hc
        have := hc.2.1
        omega
      | idle =>
        simp only [e] at h2
        rw [h2, h1, mem_down, e] at hx
        simp only [CPc.pos] at hx; omega
      | wait nx =>
        simp only [e] at h2
        rw [h2, h1, mem_down, e] at hx
        rw [e] at hc
        simp only [CPc.pos, CInv] at hx hc; omega
      | scan nx rest m =>
        simp only [e] at h2
        rw [h2, h1, mem_down, e] at hx
        rw [e] at hc
        have := hc.1
        simp only [CPc.pos] at hx; omega
  omega

/-- **C66**.  Every processor is called for events 0, 1, 2, … in this order, without gap or repetition, only for published events,
and what it is done with is the same list without the event it is working on, if any. -/
theorem C66_each_once_in_order {cfg : Cfg} (hk : cfg.k ≤ 30) {v : V} {s : St V} (hr : Reach cfg v s) (hl : s.late = false) (p : Nat) :
    ∃ n m : Nat, calls s p = (List.range n).map (fun i => (i : Int)) ∧ finished s p = (List.range m).map (fun i => (i : Int)) ∧
      m ≤ n ∧ n ≤ m + 1 ∧ (n : Int) ≤ s.cursor + 1 := by
  have h := hr.inv hk hl
  have hp := h.hist p
  have hc := h.cons p
  have hg := h.seq_ge p
  have hle := h.seq_le p
  have hcg := h.cur_ge
  unfold HInv at hp
  split at hp
  · exact ⟨0, 0, by simp [calls, hp.1], by simp [finished, hp.2.1], by omega, by omega, by omega⟩
  · obtain ⟨h1, h2⟩ := hp
    unfold calls finished
    cases e : s.cp p with
    | handle nx av =>
      simp only [e, CPc.pos] at h1 h2
      rw [e] at hc
      have a := hc.1
      have b := hc.2.1
      have c := hc.2.2.1
      refine ⟨nx.toNat + 1, nx.toNat, ?_, by rw [h1, down_reverse], by omega, by omega, by omega⟩
      rw [h2, h1, ← down_reverse, down, Int.toNat_of_nonneg (by omega)]
    | idle =>
      simp only [e, CPc.pos] at h1 h2
      exact ⟨_, _, by rw [h2, h1, down_reverse], by rw [h1, down_reverse], Nat.le_refl _, by omega, by omega⟩
    | wait nx =>
      simp only [e, CPc.pos] at h1 h2
      rw [e] at hc
      simp only [CInv] at hc
      exact ⟨_, _, by rw [h2, h1, down_reverse], by rw [h1, down_reverse], Nat.le_refl _, by omega, by omega⟩
    | scan nx rest m =>
      simp only [e, CPc.pos] at h1 h2
      rw [e] at hc
      have := hc.1
      exact ⟨_, _, by rw [h2, h1, down_reverse], by rw [h1, down_reverse], Nat.le_refl _, by omega, by omega⟩
    | batch nx av =>
      simp only [e, CPc.pos] at h1 h2
      rw [e] at hc
      have a := hc.1
      have b := hc.2.1
      have c := hc.2.2.1
      exact ⟨_, _, by rw [h2, h1, down_reverse], by rw [h1, down_reverse], Nat.le_refl _, by omega, by omega⟩

/-- `p` gates the producer itself, or some processor downstream of it does. -/
def Covered (cfg : Cfg) (s : St V) (p : Nat) : Prop := ∃ c ∈ s.gating, c = p ∨ Upstream cfg p c

/-- **C66**.  It is enough that the last processors of a chain gate the producer: as long as the handler of any covered processor is
looking at an event, the slot holds what was published for that event. -/
theorem C66_leaf_gating_suffices {cfg : Cfg} (hk : cfg.k ≤ 30) {v : V} {s : St V} (hr : Reach cfg v s) (hl : s.late = false)
    {p : Nat} (hcov : Covered cfg s p) {x av : Int} (hh : s.cp p = .handle x av) :
    s.pub x = some (s.slot (slotIdx cfg.k x)) ∧ (s.pub x).isSome := by
  have h := hr.inv hk hl
  obtain ⟨c, hc, hcp⟩ := hcov
  have h1 := h.over c hc
  have h2 : s.seq c ≤ s.seq p := by
    rcases hcp with e | hu
    · subst e; exact Int.le_refl _
    · exact hu.seq_le h
  have hi := h.cons p
  rw [hh] at hi
  have a := hi.1
  have b := hi.2.1
  have d := hi.2.2.1
  have g := h.seq_ge p
  have := h.slot_pub x (by omega) (by omega) (by omega)
  exact ⟨this, by rw [this]; rfl⟩

/-- **C66**.  No slot is claimed again before every covered processor is done with the event it held. -/
theorem C66_claim_after_all {cfg : Cfg} (hk : cfg.k ≤ 30) {v : V} {s : St V} (hr : Reach cfg v s) (hl : s.late = false)
    {p : Nat} (hcov : Covered cfg s p) (hn : cfg.noop p = false) {x : Int} (h0 : 0 ≤ x) (hx : x + 2 ^ cfg.k ≤ s.nextVal) :
    x ∈ finished s p := by
  have h := hr.inv hk hl
  obtain ⟨c, hc, hcp⟩ := hcov
  have h1 := h.over c hc
  have h2 : s.seq c ≤ s.seq p := by
    rcases hcp with e | hu
    · subst e; exact Int.le_refl _
    · exact hu.seq_le h
  have hp := h.hist p
  unfold HInv at hp
  rw [if_neg (by simp [hn])] at hp
  simp only [finished, List.mem_reverse]
  rw [hp.1, mem_down]
  have hi := h.cons p
  cases e : s.cp p <;> rw [e] at hi <;> simp only [CInv, CPc.pos] at hi ⊢ <;> omega

theorem nScan_run {cfg : Cfg} {n : Int} (l : List Nat) : ∀ {s : St V} {m : Int}, s.pp = .nScan n l m →
    ∃ t, run cfg s (List.replicate (l.length + 1) .pstep) = some t ∧
      ((s.nextVal + n - 2 ^ cfg.k ≤ m ∧ ∀ c ∈ l, s.nextVal + n - 2 ^ cfg.k ≤ s.seq c) → t.pp = .idle ∧ t.nextVal = s.nextVal + n) ∧
      (¬ (s.nextVal + n - 2 ^ cfg.k ≤ m ∧ ∀ c ∈ l, s.nextVal + n - 2 ^ cfg.k ≤ s.seq c) → t.pp ≠ .idle ∧ t.nextVal = s.nextVal) := by
  induction l with
  | nil =>
    intro s m hp
    by_cases hg : s.nextVal + n - 2 ^ cfg.k > m
    · refine ⟨{ s with pp := .nScan n s.gating s.nextVal }, by simp [run, step, pstep, hp, hg], ?_, ?_⟩
      · intro h; omega
      · intro _; simp
    · refine ⟨claim { s with cached := m } n, by simp [run, step, pstep, hp, hg], ?_, ?_⟩
      · intro _; simp [claim]
      · intro h; exact absurd ⟨by omega, by simp⟩ h
  | cons c l ih =>
    intro s m hp
    obtain ⟨t, h1, h2, h3⟩ := ih (s := { s with pp := .nScan n l (if s.seq c < m then s.seq c else m) })
      (m := if s.seq c < m then s.seq c else m) rfl
    have e : (s.nextVal + n - 2 ^ cfg.k ≤ m ∧ ∀ d ∈ c :: l, s.nextVal + n - 2 ^ cfg.k ≤ s.seq d) ↔
        (s.nextVal + n - 2 ^ cfg.k ≤ (if s.seq c < m then s.seq c else m) ∧ ∀ d ∈ l, s.nextVal + n - 2 ^ cfg.k ≤ s.seq d) := by
      simp only [List.mem_cons, forall_eq_or_imp]
      split <;> constructor <;> rintro ⟨a, b⟩ <;> (try obtain ⟨b, c⟩ := b) <;> refine ⟨?_, ?_⟩ <;> first | omega | assumption | (refine ⟨by omega, ?_⟩; assumption)
    refine ⟨t, ?_, fun h => h2 (e.mp h), fun h => h3 (fun hc => h (e.mpr hc))⟩
    rw [List.length_cons, List.replicate_succ, run]
    simp only [step, pstep, hp]
    exact h1

theorem tScan_run {cfg : Cfg} {n : Int} (l : List Nat) : ∀ {s : St V} {m : Int}, s.pp = .tScan n l m →
    ∃ t, run cfg s (List.replicate (l.length + 1) .pstep) = some t ∧ t.pp = .idle ∧
      ((s.nextVal + n - 2 ^ cfg.k ≤ m ∧ ∀ c ∈ l, s.nextVal + n - 2 ^ cfg.k ≤ s.seq c) → t.nextVal = s.nextVal + n) ∧
      (¬ (s.nextVal + n - 2 ^ cfg.k ≤ m ∧ ∀ c ∈ l, s.nextVal + n - 2 ^ cfg.k ≤ s.seq c) → t.nextVal = s.nextVal) := by
  induction l with
  | nil =>
    intro s m hp
    by_cases hg : s.nextVal + n - 2 ^ cfg.k > m
    · refine ⟨{ s with cached := m, pp := .idle }, by simp [run, step, pstep, hp, hg], rfl, ?_, ?_⟩
      · intro h; omega
      · intro _; simp
    · refine ⟨claim { s with cached := m } n, by simp [run, step, pstep, hp, hg], rfl, ?_, ?_⟩
      · intro _; simp [claim]
      · intro h; exact absurd ⟨by omega, by simp⟩ h
  | cons c l ih =>
    intro s m hp
    obtain ⟨t, h1, h0, h2, h3⟩ := ih (s := { s with pp := .tScan n l (if s.seq c < m then s.seq c else m) })
      (m := if s.seq c < m then s.seq c else m) rfl
    have e : (s.nextVal + n - 2 ^ cfg.k ≤ m ∧ ∀ d ∈ c :: l, s.nextVal + n - 2 ^ cfg.k ≤ s.seq d) ↔
        (s.nextVal + n - 2 ^ cfg.k ≤ (if s.seq c < m then s.seq c else m) ∧ ∀ d ∈ l, s.nextVal + n - 2 ^ cfg.k ≤ s.seq d) := by
      simp only [List.mem_cons, forall_eq_or_imp]
      split <;> constructor <;> rintro ⟨a, b⟩ <;> (try obtain ⟨b, c⟩ := b) <;> refine ⟨?_, ?_⟩ <;> first | omega | assumption | (refine ⟨by omega, ?_⟩; assumption)
    refine ⟨t, ?_, h0, fun h => h2 (e.mp h), fun h => h3 (fun hc => h (e.mpr hc))⟩
    rw [List.length_cons, List.replicate_succ, run]
    simp only [step, pstep, hp]
    exact h1

/-- There is room for `n` more events: the processors the producer waits for are done with the events the slots held. -/
def Room (cfg : Cfg) (s : St V) (n : Int) : Prop := ∀ c ∈ s.gating, s.nextVal + n ≤ s.seq c + 2 ^ cfg.k

/-- **C66**.  `try_next(n)`, left alone, returns, and it claims the `n` slots exactly if there is room for them; otherwise it claims
nothing. -/
theorem C66_try_next_exact {cfg : Cfg} (hk : cfg.k ≤ 30) {v : V} {s : St V} (hr : Reach cfg v s) (hl : s.late = false)
    (hp : s.pp = .idle) {n : Int} (hn : 1 ≤ n) (hB : n ≤ 2 ^ cfg.k) :
    ∃ j t, run cfg s (.callTry n :: List.replicate j .pstep) = some t ∧ t.pp = .idle ∧
      (Room cfg s n → t.nextVal = s.nextVal + n) ∧ (¬ Room cfg s n → t.nextVal = s.nextVal) := by
  have h := hr.inv hk hl
  by_cases hc : s.nextVal + n - 2 ^ cfg.k > s.cached ∨ s.cached > s.nextVal
  · obtain ⟨t, h1, h0, h2, h3⟩ := tScan_run (cfg := cfg) (n := n) s.gating (s := { s with pp := .tScan n s.gating s.nextVal }) (m := s.nextVal) rfl
    have e : (s.nextVal + n - 2 ^ cfg.k ≤ s.nextVal ∧ ∀ c ∈ s.gating, s.nextVal + n - 2 ^ cfg.k ≤ s.seq c) ↔ Room cfg s n :=
      ⟨fun h c hc => by have := h.2 c hc; omega, fun h => ⟨by omega, fun c hc => by have := h c hc; omega⟩⟩
    refine ⟨s.gating.length + 1, t, ?_, h0, fun h => h2 (e.mpr h), fun h => h3 (fun hc => h (e.mp hc))⟩
    rw [run]
    simp only [step, hp, hn, and_self, if_true, hc]
    exact h1
  · refine ⟨0, claim s n, by simp [run, step, hp, hn, hc], rfl, fun _ => rfl, fun hno => absurd ?_ hno⟩
    intro c hg
    have := h.cached_seq c hg
    omega

/-- **C66**.  `next(n)`, left alone, comes back with the `n` slots if there is room for them; without room a whole look at the gating
sequences ends where it began, still waiting. -/
theorem C66_next_exact {cfg : Cfg} (hk : cfg.k ≤ 30) {v : V} {s : St V} (hr : Reach cfg v s) (hl : s.late = false)
    (hp : s.pp = .idle) {n : Int} (hn : 1 ≤ n) (hB : n ≤ 2 ^ cfg.k) :
    ∃ j t, run cfg s (.callNext n :: List.replicate j .pstep) = some t ∧
      (Room cfg s n → t.pp = .idle ∧ t.nextVal = s.nextVal + n) ∧ (¬ Room cfg s n → t.pp ≠ .idle ∧ t.nextVal = s.nextVal) := by
  have h := hr.inv hk hl
  by_cases hc : s.nextVal + n - 2 ^ cfg.k > s.cached ∨ s.cached > s.nextVal
  · obtain ⟨t, h1, h2, h3⟩ := nScan_run (cfg := cfg) (n := n) s.gating (s := { s with pp := .nScan n s.gating s.nextVal }) (m := s.nextVal) rfl
    have e : (s.nextVal + n - 2 ^ cfg.k ≤ s.nextVal ∧ ∀ c ∈ s.gating, s.nextVal + n - 2 ^ cfg.k ≤ s.seq c) ↔ Room cfg s n :=
      ⟨fun h c hc => by have := h.2 c hc; omega, fun h => ⟨by omega, fun c hc => by have := h c hc; omega⟩⟩
    refine ⟨s.gating.length + 1, t, ?_, fun h => h2 (e.mpr h), fun h => h3 (fun hc => h (e.mp hc))⟩
    rw [run]
    simp only [step, hp, hn, and_self, if_true, hc]
    exact h1
  · refine ⟨0, claim s n, by simp [run, step, hp, hn, hc], fun _ => ⟨rfl, rfl⟩, fun hno => absurd ?_ hno⟩
    intro c hg
    have := h.cached_seq c hg
    omega

theorem gating_step {cfg : Cfg} {s t : St V} {a : Act V} (hs : step cfg s a = some t) {c : Nat} (hc : c ∈ s.gating)
    (ha : a ≠ .removeGating c) : c ∈ t.gating := by
  cases a with
  | addGating d => cases hs; exact List.mem_append.mpr (Or.inl hc)
  | removeGating d =>
    cases hs
    refine List.mem_filter.mpr ⟨hc, ?_⟩
    have : c ≠ d := fun e => ha (by rw [e])
    simpa using this
  | _ =>
    simp only [Chain.step, Chain.look, Chain.pstep, claim] at hs
    (repeat' split at hs) <;> (try cases hs) <;> exact hc

/-- **C66**.  A processor registered with the producer gates it until it is removed. -/
theorem C66_registered {cfg : Cfg} {s t : St V} {c : Nat} {as : List (Act V)} (hs : run cfg s (.addGating c :: as) = some t)
    (ha : ∀ a ∈ as, a ≠ .removeGating c) : c ∈ t.gating ∧ Covered cfg t c := by
  have key : ∀ (bs : List (Act V)) (u : St V), c ∈ u.gating → (∀ a ∈ bs, a ≠ .removeGating c) → run cfg u bs = some t → c ∈ t.gating := by
    intro bs
    induction bs with
    | nil => intro u hu _ h; cases h; exact hu
    | cons b bs ih =>
      intro u hu hb h
      rw [run] at h
      split at h
      · cases h
      · rename_i u' hu'
        exact ih u' (gating_step hu' hu (hb b (by simp))) (fun a ha => hb a (by simp [ha])) h
  have : c ∈ t.gating := key as _ (List.mem_append.mpr (Or.inr (by simp))) ha hs
  exact ⟨this, c, this, Or.inl rfl⟩

/-- The processors of `ps` can be listed so that each depends only on earlier ones. -/
def Ordered (cfg : Cfg) (ps : List Nat) : Prop := ∀ l p r, ps = l ++ p :: r → ∀ q ∈ cfg.deps p, q ∈ l

/-- A step of one of the processors `ps` that is in `run`. -/
def OwnOf (ps : List Nat) (a : Act V) : Prop := ∃ p ∈ ps, Own p a

theorem progress_aux {cfg : Cfg} (hk : cfg.k ≤ 30) {v : V} (all : List Nat) (ho : Ordered cfg all) (hnd : all.Nodup) :
    ∀ (r l : List Nat), all = l ++ r → ∀ s : St V, Reach cfg v s → s.late = false → s.cursor ≤ llmax →
      (∀ p ∈ l, s.cp p = .wait (s.cursor + 1) ∧ s.seq p = s.cursor) → (∀ p ∈ r, s.cp p ≠ .idle) →
      ∃ as t, (∀ a ∈ as, OwnOf all a) ∧ run cfg s as = some t ∧ t.cursor = s.cursor ∧ t.late = false ∧ Reach cfg v t ∧
        ∀ p ∈ all, t.cp p = .wait (s.cursor + 1) ∧ t.seq p = s.cursor := by
  intro r
  induction r with
  | nil =>
    intro l e s hr hl hm h1 _
    exact ⟨[], s, nofun, rfl, rfl, hl, hr, fun p hp => h1 p (by rw [e] at hp; simpa using hp)⟩
  | cons p r ih =>
    intro l e s hr hl hm h1 h2
    have hnd' := hnd
    rw [e] at hnd'
    have hpl : p ∉ l := by
      intro hp; have := (List.nodup_append.mp hnd').2.2 p hp p (by simp); exact this rfl
    have hpr : p ∉ r := (List.nodup_cons.mp (List.nodup_append.mp hnd').2.1).1
    have hdep := ho l p r e
    obtain ⟨t, g1, g2, g3⟩ := drain hk hr hl (h2 p (by simp)) (fun hp => hpl (hdep p hp)) (fun d hd => (h1 d (hdep d hd)).2) hm
    have lt := g1.loc
    obtain ⟨as, k1, k2⟩ := g1.run
    obtain ⟨bs, u, j1, j2, j3, j4, j5, j6⟩ := ih (l ++ [p]) (by simp [e]) t (g1.reach hr) (by rw [lt.late]; exact hl)
      (by rw [lt.cursor]; exact hm)
      (by
        intro q hq
        rw [lt.cursor]
        rcases List.mem_append.mp hq with hq | hq
        · have hne : q ≠ p := fun e => hpl (e ▸ hq)
          rw [lt.cp q hne, lt.seq q hne]; exact h1 q hq
        · simp only [List.mem_singleton] at hq; subst hq; exact ⟨g2, g3⟩)
      (by
        intro q hq
        have hne : q ≠ p := fun e => hpr (e ▸ hq)
        rw [lt.cp q hne]; exact h2 q (by simp [hq]))
    refine ⟨as ++ bs, u, ?_, by rw [run_append, k2]; exact j2, by rw [j3, lt.cursor], j4, j5, by rw [lt.cursor] at j6; exact j6⟩
    intro a ha
    rcases List.mem_append.mp ha with h | h
    · exact ⟨p, by rw [e]; simp, k1 a h⟩
    · exact j1 a h

/-- **C66**.  Chains do not block each other: from every reachable state, if the running processors can be listed so that each depends
only on earlier ones, their own steps alone lead to a state in which every one of them is done with every published event, and a
producer waiting for them finds the ring free. -/
theorem C66_progress {cfg : Cfg} (hk : cfg.k ≤ 30) {v : V} {s : St V} (hr : Reach cfg v s) (hl : s.late = false)
    (hm : s.cursor ≤ 2 ^ 63 - 1) (ps : List Nat) (hnd : ps.Nodup) (ho : Ordered cfg ps) (hrun : ∀ p ∈ ps, s.cp p ≠ .idle) :
    ∃ as t, (∀ a ∈ as, OwnOf ps a) ∧ run cfg s as = some t ∧ t.cursor = s.cursor ∧
      (∀ p ∈ ps, t.seq p = s.cursor) ∧
      ∀ p ∈ ps, cfg.noop p = false → finished t p = (List.range (s.cursor + 1).toNat).map (fun i => (i : Int)) := by
  obtain ⟨as, t, h1, h2, h3, h4, h5, h6⟩ := progress_aux hk ps ho hnd ps [] rfl s hr hl hm nofun hrun
  refine ⟨as, t, h1, h2, h3, fun p hp => (h6 p hp).2, fun p hp hn => ?_⟩
  have := (h5.inv hk h4).hist p
  unfold HInv at this
  rw [if_neg (by simp [hn]), (h6 p hp).1] at this
  rw [finished, this.1, down_reverse]; rfl

/-! A pipeline: 0 and 1 look at the cursor, the no-op processor 3 joins them, 2 follows and alone gates the ring of two slots. -/

def diamond : Cfg where
  k := 1
  deps := fun p => if p = 3 then [0, 1] else if p = 2 then [3] else []
  noop := fun p => p == 3

def startAll : List (Act Nat) := [.addGating 2, .run 0, .run 1, .run 2, .run 3]

def put (x : Int) (v : Nat) : List (Act Nat) := [.callNext 1, .write x v, .publish x]

def handleTwo (p : Nat) : List (Act Nat) := [.look p, .advance p, .finish p, .advance p, .finish p, .advance p]

/-- Processor 1 is behind: 2 may not start, and with a full ring `try_next` is refused. -/
theorem C66_example_held_back :
    ((run diamond (St.init 0) (startAll ++ put 0 7 ++ put 1 8 ++ handleTwo 0 ++
      [.look 3, .look 3, .look 3, .look 3, .look 2, .look 2, .look 2, .callTry 1, .pstep, .pstep])).map
      (fun s => (s.nextVal, s.cp 2, s.late, finished s 0, calls s 2))) =
      some (1, .wait 0, false, [0, 1], []) := by
  decide +kernel

/-- Once 1 has finished the first event, it reaches 2 through the no-op processor, and 2 sees what was published. -/
theorem C66_example_through :
    ((run diamond (St.init 0) (startAll ++ put 0 7 ++ put 1 8 ++ handleTwo 0 ++
      [.look 1, .advance 1, .throw 1, .look 3, .look 3, .look 3, .look 3, .advance 3, .look 2, .look 2, .look 2, .advance 2])).map
      (fun s => (s.cp 2, s.late, finished s 1, calls s 2, s.slot (slotIdx 1 0)))) =
      some (.handle 0 0, false, [0], [0], 7) := by
  decide +kernel

theorem C66_example_upstream : Upstream diamond 1 2 := .through (r := 3) (.direct (by decide)) (by decide)

theorem C66_example_ordered : Ordered diamond [0, 1, 3, 2] := by
  intro l p r e q hq
  have hmem : p = 0 ∨ p = 1 ∨ p = 3 ∨ p = 2 := by
    have : p ∈ [0, 1, 3, 2] := by rw [e]; simp
    simpa using this
  rcases l with _ | ⟨a, _ | ⟨b, _ | ⟨c, _ | ⟨d, l⟩⟩⟩⟩ <;> simp at e
  · rw [← e.1] at hq; rw [show diamond.deps 0 = [] by decide] at hq; cases hq
  · rw [← e.2.1] at hq; rw [show diamond.deps 1 = [] by decide] at hq; cases hq
  · obtain ⟨e1, e2, e3, _⟩ := e
    rw [← e3] at hq
    have : diamond.deps 3 = [0, 1] := by decide
    rw [this] at hq; rw [← e1, ← e2]; exact hq
  · obtain ⟨e1, e2, e3, e4, _⟩ := e
    rw [← e4] at hq
    have : diamond.deps 2 = [3] := by decide
    rw [this] at hq; rw [← e3]; simp at hq; simp [hq]

/-- **C66, finding**: registration after events were published breaks the chain.  `add_gating_sequences` moves the last processor to the
cursor, ahead of the processor it depends on, so the producer overwrites events that one has not seen: its handler is looking at
event 0 while the slot holds event 2. -/
theorem C66_violation_late_chain :
    ((run { k := 1, deps := fun p => if p = 1 then [0] else [], noop := fun _ => false } (St.init 0)
      (put 0 7 ++ put 1 8 ++ [.addGating 1, .run 0, .run 1, .look 0, .advance 0] ++
        [.callNext 1, .pstep, .pstep, .write 2 9])).map
      (fun s => (s.late, s.gating, s.cp 0, s.pub 0, s.slot (slotIdx 1 0)))) =
      some (true, [1], .handle 0 1, some 7, 9) := by
  decide +kernel

/-- **C66, finding**: a processor tracked by its own barrier, directly or through others, never gets to an event. -/
theorem C66_cycle_never_starts {cfg : Cfg} (hk : cfg.k ≤ 30) {v : V} {s : St V} (hr : Reach cfg v s) (hl : s.late = false)
    {p : Nat} (hu : Upstream cfg p p) : calls s p = [] := by
  have key : ∀ t : St V, Reach cfg v t → t.late = false → ∀ nx av, t.cp p ≠ .handle nx av := by
    intro t ht hlt nx av e
    have h := ht.inv hk hlt
    have h5 := hu.av_le h e
    have h6 := h.cons p
    rw [e] at h6
    have := h6.1
    omega
  have : s.started p = [] := by
    induction hr with
    | init => rfl
    | step hr hs ih =>
      rename_i s0 s1 a
      have ih := ih (late_mono hs hl)
      have hk1 := key s1 (.step hr hs) hl
      cases a with
      | advance c =>
        simp only [Chain.step] at hs
        split at hs
        · split at hs
          · cases hs; exact ih
          · split at hs <;> cases hs
            · by_cases e : p = c
              · subst e; exact absurd (upd_same _ _ _) (hk1 _ _)
              · show upd s0.started c _ p = []
                rw [upd_other _ _ e]; exact ih
            · exact ih
        · cases hs
      | _ =>
        simp only [Chain.step, Chain.look, Chain.pstep, claim] at hs
        (repeat' split at hs) <;> (try cases hs) <;> exact ih
  rw [calls, this]; rfl

end Verif.Chain
