import Verif.Spec.LockFree

/-! Progress of the lock-free stack (C80): a potential. -/

namespace Verif.LFS
open Verif

variable {α : Type}

/-- Steps of a call that are still needed when no compare-and-swap fails. -/
def PC.rem : PC α → Nat
  | .idle => 0
  | .start _ => 7
  | .loaded .. => 6
  | .linkRead .. => 5
  | .holds .. => 4
  | .filled .. => 3
  | .pLoaded .. => 2
  | .pLinked .. => 1

/-- Compare-and-swaps of a call that have still to succeed. -/
def PC.cas : PC α → Nat
  | .idle => 0
  | .start _ | .loaded .. | .linkRead .. => 2
  | .holds .. | .filled .. | .pLoaded .. | .pLinked .. => 1

/-- The value the thread has loaded is not the current one any more. -/
def stale (hd : Which → Head) : PC α → Nat
  | .loaded c orig _ | .linkRead c orig _ _ => if hd c.src = orig then 0 else 1
  | .pLoaded c _ _ orig | .pLinked c _ _ orig => if hd c.dst = orig then 0 else 1
  | _ => 0

theorem stale_le (hd : Which → Head) (p : PC α) : stale hd p ≤ 1 := by
  cases p <;> simp only [stale] <;> (try split) <;> omega

def val (N : Nat) (s : State α) (t : Nat) : Nat := (s.pc t).rem + 2 * (N - 1) * (s.pc t).cas + 2 * stale s.hd (s.pc t)

def tot (f : Nat → Nat) : Nat → Nat
  | 0 => 0
  | n + 1 => tot f n + f n

theorem tot_le {f g : Nat → Nat} {b : Nat} : ∀ {n : Nat}, (∀ u, u < n → g u ≤ f u + b) → tot g n ≤ tot f n + b * n
  | 0, _ => by simp [tot]
  | n + 1, h => by
    have h1 := tot_le (n := n) (fun u hu => h u (by omega))
    have h2 := h n (by omega)
    simp only [tot, Nat.mul_add, Nat.mul_one]
    omega

theorem tot_upd {f g : Nat → Nat} {b t k c : Nat} : ∀ {n : Nat}, t < n → (∀ u, u < n → u ≠ t → g u ≤ f u + b) → g t + k ≤ f t + c →
    tot g n + k ≤ tot f n + c + b * (n - 1)
  | 0, h, _, _ => by omega
  | n + 1, ht, h, hk => by
    by_cases e : t = n
    · subst e
      have := tot_le (n := t) (f := f) (g := g) (b := b) (fun u hu => h u (by omega) (by omega))
      simp only [tot, Nat.add_sub_cancel]
      omega
    · have h1 := tot_upd (n := n) (f := f) (g := g) (b := b) (k := k) (c := c) (t := t) (by omega) (fun u hu => h u (by omega)) hk
      have h2 := h n (by omega) (fun e' => e e'.symm)
      have h3 : b * n = b * (n - 1) + b := by
        obtain ⟨m, rfl⟩ : ∃ m, n = m + 1 := ⟨n - 1, by omega⟩
        simp [Nat.mul_add]
      simp only [tot, Nat.add_sub_cancel]
      omega

def cost (N : Nat) : Act α → Nat
  | .call _ => 4 * N + 4
  | .go true => 2
  | .go false => 0

/-- A step that leaves the heads of the lists alone. -/
theorem val_same {N : Nat} {s s' : State α} {t : Nat} {p : PC α} (h1 : s'.hd = s.hd) (h2 : s'.pc = upd s.pc t p) (ht : t < N) {k c : Nat}
    (hk : (p.rem + 2 * (N - 1) * p.cas + 2 * stale s.hd p) + k ≤ val N s t + c) : tot (val N s') N + k ≤ tot (val N s) N + c := by
  have := tot_upd (f := val N s) (g := val N s') (b := 0) (k := k) (c := c) (t := t) ht (fun u _ hu => by simp only [val, h1, h2, upd_other _ _ hu]; omega)
    (by simp only [val, h1, h2, upd_same] at hk ⊢; exact hk)
  omega

/-- A successful compare-and-swap. -/
theorem val_cas {N : Nat} {s s' : State α} {t : Nat} {p : PC α} (h2 : s'.pc = upd s.pc t p) (ht : t < N) {k : Nat}
    (hk : (p.rem + 2 * (N - 1) * p.cas + 2 * stale s'.hd p) + (k + 2 * (N - 1)) ≤ val N s t) : tot (val N s') N + k ≤ tot (val N s) N := by
  have := tot_upd (f := val N s) (g := val N s') (b := 2) (k := k + 2 * (N - 1)) (c := 0) (t := t) ht (fun u _ hu => by
      have h3 := stale_le s'.hd (s.pc u)
      simp only [val, h2, upd_other _ _ hu]; omega)
    (by simp only [val, h2, upd_same] at hk ⊢; exact hk)
  omega

theorem step_tot {N : Nat} {s s' : State α} {t : Nat} {a : Act α} {o : List (Obs α)} (ht : t < N) (hs : step s t a = some (s', o)) :
    tot (val N s') N + 1 ≤ tot (val N s) N + cost N a := by
  cases a with
  | call c =>
    cases hp : s.pc t with
    | idle =>
      simp only [step, hp, Option.some.injEq, Prod.mk.injEq] at hs
      obtain ⟨rfl, _⟩ := hs
      refine val_same (s := s) (p := .start c) (by rfl) (by rfl) ht ?_
      simp only [val, hp, PC.rem, PC.cas, stale, cost]
      omega
    | _ => simp [step, hp] at hs
  | go sp =>
    have h0 : ∀ k, k ≤ k + cost N (.go sp : Act α) := fun k => Nat.le_add_right _ _
    cases hp : s.pc t with
    | idle => simp [step, hp] at hs
    | start c =>
      simp only [step, hp, Option.some.injEq, Prod.mk.injEq] at hs
      obtain ⟨rfl, _⟩ := hs
      refine val_same (s := s) (p := .loaded c (s.hd c.src) (s.ver c.src)) (by rfl) (by rfl) ht (Nat.le_trans ?_ (h0 _))
      simp only [val, hp, PC.rem, PC.cas, stale, if_true]
      omega
    | loaded c orig ver =>
      simp only [step, hp] at hs
      split at hs
      · simp only [Option.some.injEq, Prod.mk.injEq] at hs
        obtain ⟨rfl, _⟩ := hs
        refine val_same (s := s) (p := .idle) (by rfl) (by rfl) ht (Nat.le_trans ?_ (h0 _))
        simp only [val, hp, PC.rem, PC.cas, stale]
        omega
      · simp only [Option.some.injEq, Prod.mk.injEq] at hs
        obtain ⟨rfl, _⟩ := hs
        refine val_same (s := s) (p := .linkRead c orig ver (s.nxt orig.idx)) (by rfl) (by rfl) ht (Nat.le_trans ?_ (h0 _))
        simp only [val, hp, PC.rem, PC.cas, stale]
        omega
    | linkRead c orig ver n =>
      simp only [step, hp] at hs
      split at hs
      · simp only [Option.some.injEq, Prod.mk.injEq] at hs
        obtain ⟨rfl, _⟩ := hs
        refine Nat.le_trans (val_cas (s := s) (p := .holds c orig.idx) (by rfl) ht ?_) (h0 _)
        simp only [val, hp, PC.rem, PC.cas, stale]
        omega
      · rename_i hc
        simp only [Option.some.injEq, Prod.mk.injEq] at hs
        obtain ⟨rfl, _⟩ := hs
        refine val_same (s := s) (p := .loaded c (s.hd c.src) (s.ver c.src)) (by rfl) (by rfl) ht ?_
        cases sp with
        | true => simp only [val, hp, PC.rem, PC.cas, stale, if_true, cost]; omega
        | false =>
          have hc : ¬ s.hd c.src = orig := fun e => hc ⟨e, rfl⟩
          simp only [val, hp, PC.rem, PC.cas, stale, if_true, if_neg hc, cost]; omega
    | holds c i =>
      have : ∃ v s1, step s t (.go sp) = some (s1, []) ∧ s1.hd = s.hd ∧ s1.pc = upd s.pc t (.filled c i v) := by
        cases c with
        | push x => exact ⟨x, { s with data := upd s.data i x, pc := upd s.pc t (.filled (.push x) i x) }, by simp only [step, hp], rfl, rfl⟩
        | pop => exact ⟨s.data i, { s with pc := upd s.pc t (.filled .pop i (s.data i)) }, by simp only [step, hp], rfl, rfl⟩
      obtain ⟨v, s1, e1, e2, e3⟩ := this
      rw [e1] at hs
      simp only [Option.some.injEq, Prod.mk.injEq] at hs
      obtain ⟨rfl, _⟩ := hs
      refine val_same e2 e3 ht (Nat.le_trans ?_ (h0 _))
      simp only [val, hp, PC.rem, PC.cas, stale]
      omega
    | filled c i v =>
      simp only [step, hp, Option.some.injEq, Prod.mk.injEq] at hs
      obtain ⟨rfl, _⟩ := hs
      refine val_same (s := s) (p := .pLoaded c i v (s.hd c.dst)) (by rfl) (by rfl) ht (Nat.le_trans ?_ (h0 _))
      simp only [val, hp, PC.rem, PC.cas, stale, if_true]
      omega
    | pLoaded c i v orig =>
      simp only [step, hp, Option.some.injEq, Prod.mk.injEq] at hs
      obtain ⟨rfl, _⟩ := hs
      refine val_same (s := s) (p := .pLinked c i v orig) (by rfl) (by rfl) ht (Nat.le_trans ?_ (h0 _))
      simp only [val, hp, PC.rem, PC.cas, stale]
      omega
    | pLinked c i v orig =>
      simp only [step, hp] at hs
      split at hs
      · simp only [Option.some.injEq, Prod.mk.injEq] at hs
        obtain ⟨rfl, _⟩ := hs
        refine Nat.le_trans (val_cas (s := s) (p := .idle) (by rfl) ht ?_) (h0 _)
        simp only [val, hp, PC.rem, PC.cas, stale]
        omega
      · rename_i hc
        simp only [Option.some.injEq, Prod.mk.injEq] at hs
        obtain ⟨rfl, _⟩ := hs
        refine val_same (s := s) (p := .pLoaded c i v (s.hd c.dst)) (by rfl) (by rfl) ht ?_
        cases sp with
        | true => simp only [val, hp, PC.rem, PC.cas, stale, if_true, cost]; omega
        | false =>
          have hc : ¬ s.hd c.dst = orig := fun e => hc ⟨e, rfl⟩
          simp only [val, hp, PC.rem, PC.cas, stale, if_true, if_neg hc, cost]; omega

/-- All steps are paid by the calls and the spurious failures. -/
theorem run_tot {N : Nat} {s s' : State α} {sched : Sched α} {h : List (Obs α)} (hN : ∀ x ∈ sched, x.1 < N) (hr : run s sched = some (s', h)) :
    sched.length + tot (val N s') N ≤ tot (val N s) N + (4 * N + 4) * calls sched + 2 * spurious sched := by
  induction sched generalizing s h with
  | nil => simp only [run, Option.some.injEq, Prod.mk.injEq] at hr; obtain ⟨rfl, _⟩ := hr; simp [calls, spurious]
  | cons x rest ih =>
    obtain ⟨t, a⟩ := x
    simp only [run] at hr
    split at hr
    · cases hr
    · rename_i s1 o hs
      split at hr
      · cases hr
      · rename_i s2 h2 hr2
        simp only [Option.some.injEq, Prod.mk.injEq] at hr
        obtain ⟨rfl, _⟩ := hr
        have h1 := step_tot (hN _ List.mem_cons_self) hs
        have h3 := ih (fun x hx => hN x (List.mem_cons_of_mem _ hx)) hr2
        have h4 : calls ((t, a) :: rest) = calls [(t, a)] + calls rest := by
          rw [show (t, a) :: rest = [(t, a)] ++ rest from rfl, calls, List.countP_append]; rfl
        have h5 : spurious ((t, a) :: rest) = spurious [(t, a)] + spurious rest := by
          rw [show (t, a) :: rest = [(t, a)] ++ rest from rfl, spurious, List.countP_append]; rfl
        have h6 : cost N a ≤ (4 * N + 4) * calls [(t, a)] + 2 * spurious [(t, a)] := by
          cases a with
          | call c => simp [cost, calls, spurious]
          | go sp => cases sp <;> simp [cost, calls, spurious]
        rw [h4, h5, Nat.mul_add, Nat.mul_add, List.length_cons]
        omega

/-- Calls under way. -/
def inside (s : State α) (t : Nat) : Nat := match s.pc t with | .idle => 0 | _ => 1

theorem tot_eq {f g : Nat → Nat} {t : Nat} : ∀ {n : Nat}, t < n → (∀ u, u ≠ t → g u = f u) → tot g n + f t = tot f n + g t
  | 0, h, _ => by omega
  | n + 1, ht, h => by
    by_cases e : t = n
    · subst e
      have : ∀ m, m ≤ t → tot g m = tot f m := by
        intro m
        induction m with
        | zero => intro; rfl
        | succ m ih => intro hm; simp only [tot]; rw [ih (by omega), h m (by omega)]
      simp only [tot, this t (Nat.le_refl _)]
      omega
    · have := tot_eq (n := n) (f := f) (g := g) (t := t) (by omega) h
      have h2 := h n (fun e' => e e'.symm)
      simp only [tot]
      omega

theorem step_inside {N : Nat} {s s' : State α} {t : Nat} {a : Act α} {o : List (Obs α)} (ht : t < N) (hs : step s t a = some (s', o)) :
    tot (inside s) N + (calls [(t, a)]) = tot (inside s') N + completed o := by
  have key : (∀ u, u ≠ t → inside s' u = inside s u) ∧ inside s t + calls [(t, a)] = inside s' t + completed o := by
    cases a with
    | call c =>
      cases hp : s.pc t with
      | idle =>
        simp only [step, hp, Option.some.injEq, Prod.mk.injEq] at hs
        obtain ⟨rfl, rfl⟩ := hs
        refine ⟨fun u hu => by simp only [inside, upd_other _ _ hu], ?_⟩
        simp [inside, hp, calls, completed]
      | _ => simp [step, hp] at hs
    | go sp =>
      have hc : calls [(t, (Act.go sp : Act α))] = 0 := by simp [calls]
      rw [hc]
      cases hp : s.pc t with
      | idle => simp [step, hp] at hs
      | holds c i =>
        cases c <;>
          · simp only [step, hp, Option.some.injEq, Prod.mk.injEq] at hs
            obtain ⟨rfl, rfl⟩ := hs
            exact ⟨fun u hu => by simp only [inside, upd_other _ _ hu], by simp [inside, hp, completed]⟩
      | _ =>
        simp only [step, hp] at hs
        (try split at hs) <;>
          · simp only [Option.some.injEq, Prod.mk.injEq] at hs
            obtain ⟨rfl, rfl⟩ := hs
            exact ⟨fun u hu => by simp only [inside, upd_other _ _ hu], by simp [inside, hp, completed]⟩
  have := tot_eq (f := inside s) (g := inside s') ht key.1
  have := key.2
  omega

theorem run_inside {N : Nat} {s s' : State α} {sched : Sched α} {h : List (Obs α)} (hN : ∀ x ∈ sched, x.1 < N) (hr : run s sched = some (s', h)) :
    tot (inside s) N + calls sched = tot (inside s') N + completed h := by
  induction sched generalizing s h with
  | nil => simp only [run, Option.some.injEq, Prod.mk.injEq] at hr; obtain ⟨rfl, rfl⟩ := hr; simp [calls, completed]
  | cons x rest ih =>
    obtain ⟨t, a⟩ := x
    simp only [run] at hr
    split at hr
    · cases hr
    · rename_i s1 o hs
      split at hr
      · cases hr
      · rename_i s2 h2 hr2
        simp only [Option.some.injEq, Prod.mk.injEq] at hr
        obtain ⟨rfl, rfl⟩ := hr
        have h1 := step_inside (N := N) (t := t) (a := a) (hN _ List.mem_cons_self) hs
        have h3 := ih (fun x hx => hN x (List.mem_cons_of_mem _ hx)) hr2
        have h4 : calls ((t, a) :: rest) = calls [(t, a)] + calls rest := by
          rw [show (t, a) :: rest = [(t, a)] ++ rest from rfl, calls, List.countP_append]; rfl
        have h5 : completed (o ++ h2) = completed o + completed h2 := List.countP_append ..
        omega

theorem inside_le {s : State α} : ∀ n, tot (inside s) n ≤ n
  | 0 => Nat.le_refl _
  | n + 1 => by
    have := inside_le (s := s) n
    have : inside s n ≤ 1 := by simp only [inside]; split <;> omega
    simp only [tot]
    omega

theorem val_le {N : Nat} {s : State α} {t : Nat} (hN : 0 < N) : val N s t ≤ (4 * N + 4) * inside s t := by
  have := stale_le s.hd (s.pc t)
  cases hp : s.pc t <;> simp only [val, inside, hp, PC.rem, PC.cas, stale] at this ⊢ <;> omega

theorem tot_val_le {N : Nat} {s : State α} (hN : 0 < N) : ∀ n, tot (val N s) n ≤ (4 * N + 4) * tot (inside s) n
  | 0 => by simp [tot]
  | n + 1 => by
    have := tot_val_le (s := s) hN n
    have := val_le (s := s) (t := n) hN
    simp only [tot, Nat.mul_add] at *
    omega

/-- From any state whatever. -/
theorem window {N : Nat} {s s' : State α} {sched : Sched α} {h : List (Obs α)} (hN : ∀ x ∈ sched, x.1 < N) (hr : run s sched = some (s', h)) :
    sched.length ≤ (4 * N + 4) * (completed h + N) + 2 * spurious sched := by
  cases N with
  | zero => cases sched with
    | nil => simp
    | cons x r => exact absurd (hN x List.mem_cons_self) (Nat.not_lt_zero _)
  | succ n =>
    have h1 := run_tot hN hr
    have h2 := run_inside hN hr
    have h3 := tot_val_le (N := n + 1) (s := s) (by omega) (n + 1)
    have h4 := inside_le (s := s') (n + 1)
    have h5 : (4 * (n + 1) + 4) * (tot (inside s) (n + 1) + calls sched) ≤ (4 * (n + 1) + 4) * (completed h + (n + 1)) :=
      Nat.mul_le_mul_left _ (by omega)
    rw [Nat.mul_add] at h5
    omega

end Verif.LFS
