import Verif.Lemmas.PoolClient

set_option linter.unusedSimpArgs false

namespace Verif.LFS.ABA

theorem run_append {α : Type} {s s1 s2 : State α} {x y : Sched α} {h1 h2 : List (Obs α)}
    (hx : run s x = some (s1, h1)) (hy : run s1 y = some (s2, h2)) :
    run s (x ++ y) = some (s2, h1 ++ h2) := by
  induction x generalizing s h1 with
  | nil =>
    simp only [run, Option.some.injEq, Prod.mk.injEq] at hx
    obtain ⟨rfl, rfl⟩ := hx
    simpa using hy
  | cons z rest ih =>
    obtain ⟨t, a⟩ := z
    simp only [run, List.cons_append] at hx ⊢
    cases hs : step s t a with
    | none => simp [hs] at hx
    | some p =>
      obtain ⟨s', o⟩ := p
      simp only [hs] at hx ⊢
      cases hr : run s' rest with
      | none => simp [hr] at hx
      | some q =>
        obtain ⟨s'', h'⟩ := q
        simp only [hr, Option.some.injEq, Prod.mk.injEq] at hx
        obtain ⟨rfl, rfl⟩ := hx
        rw [ih hr]
        simp

/-- `n` consecutive steps of thread `t`. -/
def go (t n : Nat) : Sched Nat := List.replicate n (t, .go false)

/-- a whole call of thread `t` without interference: 7 steps -/
def full (t : Nat) (c : Call Nat) : Sched Nat := (t, .call c) :: go t 7

/-- Thread 0 loads the head and the link and is preempted; the others take all objects, give object 0
back. -/
def pre : Sched Nat :=
  ((0, .call .pop) :: go 0 2) ++ ((1, .call .pop) :: go 1 3) ++ full 2 .pop ++ full 2 .pop ++ go 1 4 ++
  full 2 (.push 0)

/-- Thread 2 takes object 0 and gives it back. -/
def cyc : Sched Nat := full 2 .pop ++ full 2 (.push 0)

def cycles : Nat → Sched Nat
  | 0 => []
  | n + 1 => cyc ++ cycles n

/-- Thread 0 continues with its stale compare-and-swap; thread 2 takes an object. -/
def post : Sched Nat := go 0 5 ++ full 2 .pop

def preH : List (Obs Nat) :=
  [.inv 0 .pop, .inv 1 .pop, .inv 2 .pop, .ret 2 .pop (.popped (some 1)), .inv 2 .pop,
   .ret 2 .pop (.popped (some 2)), .ret 1 .pop (.popped (some 0)), .inv 2 (.push 0),
   .ret 2 (.push 0) (.pushed true)]

def cycH : List (Obs Nat) :=
  [.inv 2 .pop, .ret 2 .pop (.popped (some 0)), .inv 2 (.push 0), .ret 2 (.push 0) (.pushed true)]

def cyclesH : Nat → List (Obs Nat)
  | 0 => []
  | n + 1 => cycH ++ cyclesH n

def postH : List (Obs Nat) :=
  [.ret 0 .pop (.popped (some 0)), .inv 2 .pop, .ret 2 .pop (.popped (some 1))]

structure P (s : State Nat) (k f : Nat) : Prop where
  pc0 : s.pc 0 = .linkRead .pop ⟨0, 0⟩ 0 1
  pc2 : s.pc 2 = .idle
  hdh : s.hd .head = ⟨k % 65536, 0⟩
  hdf : s.hd .free = ⟨f % 65536, 2⟩
  n0 : s.nxt 0 = UNDEF
  n1 : s.nxt 1 = UNDEF
  d0 : s.data 0 = 0
  d1 : s.data 1 = 1
  vh : s.ver .head = k

theorem pre_run : ∃ s, run (init 3 id) pre = some (s, preH) ∧ P s 4 4 := by
  refine ⟨_, rfl, ?_⟩
  constructor <;> rfl

theorem cyc_run {s : State Nat} {k f : Nat} (h : P s k f) :
    ∃ s', run s cyc = some (s', cycH) ∧ P s' (k + 2) (f + 2) := by
  obtain ⟨pc0, pc2, hdh, hdf, n0, n1, d0, d1, vh⟩ := h
  simp [cyc, full, go, run, step, Call.src, Call.dst, upd_apply, pc2, hdh, hdf, n0, d0, UNDEF,
      Head.bump, Call.okRes, cycH, List.replicate, TAGS]
  constructor <;> simp [upd_apply, pc0, pc2, hdh, hdf, n0, n1, d0, d1, UNDEF, vh]

theorem cycles_run {s : State Nat} {k f : Nat} (n : Nat) (h : P s k f) :
    ∃ s', run s (cycles n) = some (s', cyclesH n) ∧ P s' (k + 2 * n) (f + 2 * n) := by
  induction n generalizing s k f with
  | zero => exact ⟨s, rfl, h⟩
  | succ n ih =>
    obtain ⟨s1, hr1, hp1⟩ := cyc_run h
    obtain ⟨s2, hr2, hp2⟩ := ih hp1
    refine ⟨s2, run_append hr1 hr2, ?_⟩
    have e : 2 * (n + 1) = 2 + 2 * n := by omega
    rw [e, ← Nat.add_assoc, ← Nat.add_assoc]
    exact hp2

theorem post_run {s : State Nat} {f : Nat} (h : P s 65536 f) :
    ∃ s', run s post = some (s', postH) := by
  obtain ⟨pc0, pc2, hdh, hdf, n0, n1, d0, d1, vh⟩ := h
  simp [post, full, go, run, step, Call.src, Call.dst, upd_apply, pc0, pc2, hdh, hdf, n0, n1, d0, d1,
      UNDEF, Head.bump, Call.okRes, postH, List.replicate, TAGS]

theorem aba_run : ∃ s, run (init 3 id) (pre ++ (cycles 32766 ++ post)) =
    some (s, preH ++ (cyclesH 32766 ++ postH)) := by
  obtain ⟨s1, h1, p1⟩ := pre_run
  obtain ⟨s2, h2, p2⟩ := cycles_run 32766 p1
  obtain ⟨s3, h3⟩ := post_run p2
  exact ⟨s3, run_append h1 (run_append h2 h3)⟩

theorem cycles_gives (n : Nat) (h : List (Obs Nat)) (hg : GivesBackOnly [2, 1] h) :
    GivesBackOnly [2, 1] (cyclesH n ++ h) := by
  induction n with
  | zero => exact hg
  | succ n ih =>
    simp only [cyclesH, List.append_assoc]
    simp only [cycH, List.cons_append, List.nil_append, GivesBackOnly, outAfter]
    simpa using ih

theorem cycles_excl (m n : Nat) (h : List (Obs Nat)) (hg : Exclusive m [2, 1] (cyclesH n ++ h)) :
    Exclusive m [2, 1] h := by
  induction n with
  | zero => exact hg
  | succ n ih =>
    apply ih
    simp only [cyclesH, List.append_assoc] at hg
    simp only [cycH, List.cons_append, List.nil_append, Exclusive, outAfter] at hg
    simpa using hg.2.2.2.2.2.2.2.2

theorem aba_gives : GivesBackOnly [] (preH ++ (cyclesH 32766 ++ postH)) := by
  have := cycles_gives 32766 postH (by simp [postH, GivesBackOnly, outAfter])
  simp only [preH, List.cons_append, List.nil_append, GivesBackOnly, outAfter]
  simpa using this

theorem aba_not_excl : ¬ Exclusive 3 [] (preH ++ (cyclesH 32766 ++ postH)) := by
  intro h
  have h2 : Exclusive 3 [2, 1] (cyclesH 32766 ++ postH) := by
    simp only [preH, List.cons_append, List.nil_append, Exclusive, outAfter] at h
    have := h.2.2.2.2.2.2.2.2.2.2.2.2.2.2.2.2.2.2
    simpa using this
  have h3 := cycles_excl 3 32766 postH h2
  simp [postH, Exclusive, outAfter] at h3

end Verif.LFS.ABA
