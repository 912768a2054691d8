import Verif.Model.DataMux
import Verif.Props.SingleRing

namespace Verif.Mux
open Verif Verif.Disr

variable {T : Type}

/-- A subscriber is created only while no sequence is claimed and unpublished. -/
def OkAct (s : St T) : Act T → Prop
  | .subscribe c => s.ring.cursor = s.ring.nextVal ∧ s.ring.cp c = .idle
  | _ => True

/-- States reached with actions that satisfy `P`. -/
inductive Reach (shared : Bool) (k : Nat) (P : Act T → Prop) (v : T) : St T → Prop where
  | init : Reach shared k P v (St.init v)
  | step {s s' a} : Reach shared k P v s → P a → OkAct s a → step shared k s a = some s' → Reach shared k P v s'

/-- Each step is at most one step of the ring. -/
theorem step_ring {shared : Bool} {k : Nat} {s s' : St T} {a : Act T} (hs : step shared k s a = some s') :
    s'.ring = s.ring ∨ ∃ b, SRing.step k s.ring b = some s'.ring ∧ (OkAct s a → SRing.OkAct s.ring b) := by
  cases a with
  | call op =>
    simp only [step] at hs
    split at hs
    · obtain ⟨r, h1, h2⟩ := Option.map_eq_some_iff.mp hs
      refine .inr ⟨.callTry 1, ?_, fun _ => trivial⟩
      rw [h1, ← h2]; simp only [afterClaim]; (repeat' split) <;> rfl
    · cases hs
  | scan =>
    simp only [step] at hs
    split at hs
    · obtain ⟨r, h1, h2⟩ := Option.map_eq_some_iff.mp hs
      refine .inr ⟨.pstep, ?_, fun _ => trivial⟩
      rw [h1, ← h2]; simp only [afterClaim]; (repeat' split) <;> rfl
    · cases hs
  | write =>
    simp only [step] at hs
    split at hs
    · obtain ⟨r, h1, h2⟩ := Option.map_eq_some_iff.mp hs
      subst h2; exact .inr ⟨_, h1, fun _ => trivial⟩
    · cases hs; exact .inl rfl
    · cases hs
  | writeThrows g =>
    simp only [step] at hs
    split at hs
    · cases hs; exact .inl rfl
    · cases hs; exact .inl rfl
    · cases hs
  | publish =>
    simp only [step] at hs
    split at hs
    · obtain ⟨r, h1, h2⟩ := Option.map_eq_some_iff.mp hs
      subst h2; exact .inr ⟨_, h1, fun _ => trivial⟩
    · cases hs
  | subscribe c =>
    simp only [step] at hs
    obtain ⟨r, h1, h2⟩ := Option.map_eq_some_iff.mp hs
    subst h2; exact .inr ⟨_, h1, fun h => h⟩
  | run c =>
    simp only [step, lift] at hs
    obtain ⟨r, h1, h2⟩ := Option.map_eq_some_iff.mp hs
    subst h2; exact .inr ⟨_, h1, fun _ => trivial⟩
  | look c =>
    simp only [step, lift] at hs
    obtain ⟨r, h1, h2⟩ := Option.map_eq_some_iff.mp hs
    subst h2; exact .inr ⟨_, h1, fun _ => trivial⟩
  | advance c =>
    simp only [step, lift] at hs
    split at hs
    · split at hs
      · obtain ⟨r, h1, h2⟩ := Option.map_eq_some_iff.mp hs
        subst h2; exact .inr ⟨_, h1, fun _ => trivial⟩
      · obtain ⟨r, h1, h2⟩ := Option.map_eq_some_iff.mp hs
        subst h2; exact .inr ⟨_, h1, fun _ => trivial⟩
    · cases hs
  | finish c =>
    simp only [step, lift] at hs
    obtain ⟨r, h1, h2⟩ := Option.map_eq_some_iff.mp hs
    subst h2; exact .inr ⟨_, h1, fun _ => trivial⟩
  | throw c =>
    simp only [step, lift] at hs
    split at hs
    · obtain ⟨r, h1, h2⟩ := Option.map_eq_some_iff.mp hs
      subst h2; exact .inr ⟨_, h1, fun _ => trivial⟩
    · cases hs
  | leave c =>
    simp only [step, lift] at hs
    obtain ⟨r, h1, h2⟩ := Option.map_eq_some_iff.mp hs
    subst h2; exact .inr ⟨_, h1, fun _ => trivial⟩

theorem Reach.ring {shared : Bool} {k : Nat} {P : Act T → Prop} {v : T} {s : St T} (h : Reach shared k P v s) :
    SRing.Reach k none s.ring := by
  induction h with
  | init => exact .init
  | step _ _ hok hs ih =>
    rcases step_ring hs with e | ⟨b, h1, h2⟩
    · rw [e]; exact ih
    · exact ih.step (h2 hok) h1

/-! ### what the steps of the ring leave alone -/

/-- Everything but the private variables of the producer. -/
structure SameOut (r r' : SRing.St (Option Nat)) : Prop where
  cursor : r'.cursor = r.cursor
  slot : r'.slot = r.slot
  seq : r'.seq = r.seq
  gating : r'.gating = r.gating
  cp : r'.cp = r.cp
  pub : r'.pub = r.pub
  dlog : r'.dlog = r.dlog
  base : r'.base = r.base

theorem callTry_same {k : Nat} {r r' : SRing.St (Option Nat)} (h : SRing.step k r (.callTry 1) = some r') :
    SameOut r r' ∧ r.pp = .idle ∧ ((r'.pp = .idle ∧ r'.nextVal = r.nextVal + 1) ∨ (r'.pp ≠ .idle ∧ r'.nextVal = r.nextVal)) ∧
      (r'.pp ≠ .idle → ∃ rest m, r'.pp = .tScan 1 rest m) := by
  simp only [SRing.step] at h
  split at h
  · next hc =>
    split at h
    · cases h; exact ⟨⟨rfl, rfl, rfl, rfl, rfl, rfl, rfl, rfl⟩, hc.1, .inr ⟨by simp, rfl⟩, fun _ => ⟨_, _, rfl⟩⟩
    · cases h
      exact ⟨⟨rfl, rfl, rfl, rfl, rfl, rfl, rfl, rfl⟩, hc.1, .inl ⟨rfl, rfl⟩, fun h => absurd rfl h⟩
  · cases h

theorem pstep_same {k : Nat} {r r' : SRing.St (Option Nat)} {rest : List Nat} {m : Int} (hp : r.pp = .tScan 1 rest m)
    (h : SRing.step k r .pstep = some r') :
    SameOut r r' ∧ ((r'.pp = .idle ∧ r'.nextVal = r.nextVal + 1) ∨ (r'.pp = .idle ∧ r'.nextVal = r.nextVal ∧ r'.refused = r.refused + 1) ∨
      ((∃ rest m, r'.pp = .tScan 1 rest m) ∧ r'.nextVal = r.nextVal)) := by
  simp only [SRing.step, SRing.pstep, hp] at h
  cases rest with
  | nil =>
    simp only at h
    split at h
    · cases h; exact ⟨⟨rfl, rfl, rfl, rfl, rfl, rfl, rfl, rfl⟩, .inr (.inl ⟨rfl, rfl, rfl⟩)⟩
    · cases h; exact ⟨⟨rfl, rfl, rfl, rfl, rfl, rfl, rfl, rfl⟩, .inl ⟨rfl, rfl⟩⟩
  | cons c rest =>
    simp only at h
    cases h; exact ⟨⟨rfl, rfl, rfl, rfl, rfl, rfl, rfl, rfl⟩, .inr (.inr ⟨⟨_, _, rfl⟩, rfl⟩)⟩

/-- A step of a processor. -/
structure ProcStep (r r' : SRing.St (Option Nat)) : Prop where
  cursor : r'.cursor = r.cursor
  nextVal : r'.nextVal = r.nextVal
  pp : r'.pp = r.pp
  slot : r'.slot = r.slot
  gating : r'.gating = r.gating
  pub : r'.pub = r.pub
  base : r'.base = r.base

theorem run_proc {k : Nat} {r r' : SRing.St (Option Nat)} {c : Nat} (h : SRing.step k r (.run c) = some r') :
    ProcStep r r' ∧ r.cp c = .idle ∧ r'.cp = upd r.cp c (.wait (r.seq c + 1)) ∧ r'.seq = r.seq ∧ r'.dlog = r.dlog := by
  simp only [SRing.step] at h
  split at h
  · next hc => cases h; exact ⟨⟨rfl, rfl, rfl, rfl, rfl, rfl, rfl⟩, hc, rfl, rfl, rfl⟩
  · cases h

theorem look_proc {k : Nat} {r r' : SRing.St (Option Nat)} {c : Nat} (h : SRing.step k r (.look c) = some r') :
    ProcStep r r' ∧ r'.seq = r.seq ∧ r'.dlog = r.dlog ∧
      ∃ nx, r.cp c = .wait nx ∧ ((r'.cp = r.cp) ∨ (nx ≤ r.cursor ∧ r'.cp = upd r.cp c (.batch nx r.cursor))) := by
  simp only [SRing.step] at h
  split at h
  · next nx hc =>
    split at h
    · cases h; exact ⟨⟨rfl, rfl, rfl, rfl, rfl, rfl, rfl⟩, rfl, rfl, nx, hc, .inl rfl⟩
    · cases h; exact ⟨⟨rfl, rfl, rfl, rfl, rfl, rfl, rfl⟩, rfl, rfl, nx, hc, .inr ⟨by omega, rfl⟩⟩
  · cases h

theorem advance_proc {k : Nat} {r r' : SRing.St (Option Nat)} {c : Nat} {nx av : Int} (hc : r.cp c = .batch nx av)
    (h : SRing.step k r (.advance c) = some r') :
    ProcStep r r' ∧
      ((nx ≤ av ∧ r'.seq = r.seq ∧ r'.cp = upd r.cp c (.handle nx av) ∧ r'.dlog = upd r.dlog c ((nx, decide (nx = av)) :: r.dlog c)) ∨
        (¬ nx ≤ av ∧ r'.seq = upd r.seq c av ∧ r'.cp = upd r.cp c (.wait nx) ∧ r'.dlog = r.dlog)) := by
  simp only [SRing.step, hc] at h
  split at h
  · next hl => cases h; exact ⟨⟨rfl, rfl, rfl, rfl, rfl, rfl, rfl⟩, .inl ⟨hl, rfl, rfl, rfl⟩⟩
  · next hl => cases h; exact ⟨⟨rfl, rfl, rfl, rfl, rfl, rfl, rfl⟩, .inr ⟨hl, rfl, rfl, rfl⟩⟩

theorem finish_proc {k : Nat} {r r' : SRing.St (Option Nat)} {c : Nat} (h : SRing.step k r (.finish c) = some r') :
    ProcStep r r' ∧ r'.seq = r.seq ∧ r'.dlog = r.dlog ∧ ∃ nx av, r.cp c = .handle nx av ∧ r'.cp = upd r.cp c (.batch (nx + 1) av) := by
  simp only [SRing.step] at h
  split at h
  · next nx av hc => cases h; exact ⟨⟨rfl, rfl, rfl, rfl, rfl, rfl, rfl⟩, rfl, rfl, nx, av, hc, rfl⟩
  · cases h

theorem throw_proc {k : Nat} {r r' : SRing.St (Option Nat)} {c : Nat} (h : SRing.step k r (.throw c) = some r') :
    ProcStep r r' ∧ r'.dlog = r.dlog ∧
      ∃ nx av, r.cp c = .handle nx av ∧ r'.seq = upd r.seq c nx ∧ r'.cp = upd r.cp c (.wait (nx + 1)) := by
  simp only [SRing.step] at h
  split at h
  · next nx av hc => cases h; exact ⟨⟨rfl, rfl, rfl, rfl, rfl, rfl, rfl⟩, rfl, nx, av, hc, rfl, rfl⟩
  · cases h

theorem leave_proc {k : Nat} {r r' : SRing.St (Option Nat)} {c : Nat} (h : SRing.step k r (.leave c) = some r') :
    ProcStep r r' ∧ r'.seq = r.seq ∧ r'.dlog = r.dlog ∧ ∃ nx, r.cp c = .wait nx ∧ r'.cp = upd r.cp c .idle := by
  simp only [SRing.step] at h
  split at h
  · next nx hc => cases h; exact ⟨⟨rfl, rfl, rfl, rfl, rfl, rfl, rfl⟩, rfl, rfl, nx, hc, rfl⟩
  · cases h

/-! ### effect of each step of the multiplexer -/

/-- The part of the state the publisher changes. -/
structure SamePub (s s' : St T) : Prop where
  heap : s'.heap = s.heap
  alloc : s'.alloc = s.alloc
  pc : s'.pc = s.pc
  content : s'.content = s.content
  discarded : s'.discarded = s.discarded
  done : s'.done = s.done
  calls : s'.calls = s.calls
  failed : s'.failed = s.failed

/-- The part of the state the subscribers change. -/
structure SameSub (s s' : St T) : Prop where
  dl : s'.dl = s.dl
  dc : s'.dc = s.dc

/-- One step of the whole, by cases. -/
inductive Eff (shared : Bool) (k : Nat) (s s' : St T) : Act T → Prop where
  | callGot (op) (h1 : s.pc = .idle) (h2 : SameOut s.ring s'.ring) (h3 : s'.ring.pp = .idle) (h4 : s'.ring.nextVal = s.ring.nextVal + 1)
      (h5 : s' = { s with ring := s'.ring, pc := .writing op s'.ring.nextVal }) : Eff shared k s s' (.call op)
  | callScan (op) (h1 : s.pc = .idle) (h2 : SameOut s.ring s'.ring) (h3 : ∃ rest m, s'.ring.pp = .tScan 1 rest m)
      (h4 : s'.ring.nextVal = s.ring.nextVal)
      (h5 : s' = { s with ring := s'.ring, pc := .claiming op }) : Eff shared k s s' (.call op)
  | scanGot (op) (h1 : s.pc = .claiming op) (h2 : SameOut s.ring s'.ring) (h3 : s'.ring.pp = .idle)
      (h4 : s'.ring.nextVal = s.ring.nextVal + 1)
      (h5 : s' = { s with ring := s'.ring, pc := .writing op s'.ring.nextVal }) : Eff shared k s s' .scan
  | scanMore (op) (h1 : s.pc = .claiming op) (h2 : SameOut s.ring s'.ring) (h3 : ∃ rest m, s'.ring.pp = .tScan 1 rest m)
      (h4 : s'.ring.nextVal = s.ring.nextVal) (h5 : s' = { s with ring := s'.ring, pc := .claiming op }) : Eff shared k s s' .scan
  | scanRefused (op) (h1 : s.pc = .claiming op) (h2 : SameOut s.ring s'.ring) (h3 : s'.ring.pp = .idle)
      (h4 : s'.ring.nextVal = s.ring.nextVal) (h6 : s'.ring.refused = s.ring.refused + 1)
      (h5 : s' = { s with ring := s'.ring, pc := .idle, discarded := s.discarded + 1 }) : Eff shared k s s' .scan
  | writeFresh (v x) (h1 : s.pc = .writing (.fresh v) x) (h2 : s.ring.cursor < x ∧ x ≤ s.ring.nextVal)
      (h3 : s' = { s with
        ring := { s.ring with slot := upd s.ring.slot (slotIdx k x) (some s.alloc) }
        heap := upd s.heap (.fresh s.alloc) v, alloc := s.alloc + 1, pc := .ready (.fresh v) x }) : Eff shared k s s' .write
  | writeIn (f x) (h1 : s.pc = .writing (.inplace f) x)
      (h3 : s' = { s with heap := upd s.heap (objOf shared k s x) (f (s.heap (objOf shared k s x))), pc := .ready (.inplace f) x }) :
      Eff shared k s s' .write
  | throwFresh (v x g) (h1 : s.pc = .writing (.fresh v) x) (h3 : s' = { s with pc := .idle, failed := s.failed + 1 }) :
      Eff shared k s s' (.writeThrows g)
  | throwIn (f x g) (h1 : s.pc = .writing (.inplace f) x)
      (h3 : s' = { s with
        heap := upd s.heap (objOf shared k s x) (g (s.heap (objOf shared k s x))), pc := .idle, failed := s.failed + 1 }) :
      Eff shared k s s' (.writeThrows g)
  | publish (op x) (h1 : s.pc = .ready op x) (h2 : s.ring.cursor < x ∧ x ≤ s.ring.nextVal)
      (h3 : s' = { s with
        ring := { s.ring with cursor := x, pub := fun y => if s.ring.cursor < y ∧ y ≤ x then some (s.ring.slot (slotIdx k y)) else s.ring.pub y }
        pc := .idle, done := s.done + 1, calls := (x, op) :: s.calls
        content := fun y => if s.ring.cursor < y ∧ y ≤ x then some (s.heap (objOf shared k s y)) else s.content y }) :
      Eff shared k s s' .publish
  | subscribe (c) (h : s' = { s with
        ring := { s.ring with seq := upd s.ring.seq c s.ring.cursor, gating := s.ring.gating ++ [c], dlog := upd s.ring.dlog c [],
                              base := upd s.ring.base c s.ring.cursor }
        dl := upd s.dl c [], dc := upd s.dc c 0 }) : Eff shared k s s' (.subscribe c)
  | run (c) (h1 : ProcStep s.ring s'.ring) (h2 : SamePub s s') (h3 : SameSub s s') (h4 : s.ring.cp c = .idle)
      (h5 : s'.ring.cp = upd s.ring.cp c (.wait (s.ring.seq c + 1))) (h6 : s'.ring.seq = s.ring.seq) (h7 : s'.ring.dlog = s.ring.dlog) :
      Eff shared k s s' (.run c)
  | look (c nx) (h1 : ProcStep s.ring s'.ring) (h2 : SamePub s s') (h3 : SameSub s s') (h4 : s.ring.cp c = .wait nx)
      (h5 : s'.ring.cp = s.ring.cp ∨ (nx ≤ s.ring.cursor ∧ s'.ring.cp = upd s.ring.cp c (.batch nx s.ring.cursor)))
      (h6 : s'.ring.seq = s.ring.seq) (h7 : s'.ring.dlog = s.ring.dlog) : Eff shared k s s' (.look c)
  | event (c nx av) (h1 : ProcStep s.ring s'.ring) (h2 : SamePub s s') (h4 : s.ring.cp c = .batch nx av) (hle : nx ≤ av)
      (h3 : if nx = av then s'.dl = upd s.dl c ((nx, objOf shared k s nx, s.heap (objOf shared k s nx)) :: s.dl c) ∧ s'.dc = s.dc
        else s'.dl = s.dl ∧ s'.dc = upd s.dc c (s.dc c + 1))
      (h5 : s'.ring.cp = upd s.ring.cp c (.handle nx av)) (h6 : s'.ring.seq = s.ring.seq)
      (h7 : s'.ring.dlog = upd s.ring.dlog c ((nx, decide (nx = av)) :: s.ring.dlog c)) : Eff shared k s s' (.advance c)
  | batchEnd (c nx av) (h1 : ProcStep s.ring s'.ring) (h2 : SamePub s s') (h3 : SameSub s s') (h4 : s.ring.cp c = .batch nx av)
      (hgt : av < nx) (h5 : s'.ring.cp = upd s.ring.cp c (.wait nx)) (h6 : s'.ring.seq = upd s.ring.seq c av)
      (h7 : s'.ring.dlog = s.ring.dlog) : Eff shared k s s' (.advance c)
  | finish (c nx av) (h1 : ProcStep s.ring s'.ring) (h2 : SamePub s s') (h3 : SameSub s s') (h4 : s.ring.cp c = .handle nx av)
      (h5 : s'.ring.cp = upd s.ring.cp c (.batch (nx + 1) av)) (h6 : s'.ring.seq = s.ring.seq) (h7 : s'.ring.dlog = s.ring.dlog) :
      Eff shared k s s' (.finish c)
  | throw (c nx) (h1 : ProcStep s.ring s'.ring) (h2 : SamePub s s') (h3 : SameSub s s') (h4 : s.ring.cp c = .handle nx nx)
      (h5 : s'.ring.cp = upd s.ring.cp c (.wait (nx + 1))) (h6 : s'.ring.seq = upd s.ring.seq c nx)
      (h7 : s'.ring.dlog = s.ring.dlog) : Eff shared k s s' (.throw c)
  | leave (c nx) (h1 : ProcStep s.ring s'.ring) (h2 : SamePub s s') (h3 : SameSub s s') (h4 : s.ring.cp c = .wait nx)
      (h5 : s'.ring.cp = upd s.ring.cp c .idle) (h6 : s'.ring.seq = s.ring.seq) (h7 : s'.ring.dlog = s.ring.dlog) :
      Eff shared k s s' (.leave c)

/-- The publisher and the ring agree on where it is. -/
def PcInv (s : St T) : Prop :=
  match s.pc with
  | .idle => s.ring.pp = .idle
  | .claiming _ => ∃ rest m, s.ring.pp = .tScan 1 rest m
  | .writing _ x => s.ring.pp = .idle ∧ x = s.ring.nextVal ∧ s.ring.cursor < x
  | .ready _ x => s.ring.pp = .idle ∧ x = s.ring.nextVal ∧ s.ring.cursor < x

theorem same_refl (s : St T) (r : SRing.St (Option Nat)) : SamePub s { s with ring := r } ∧ SameSub s { s with ring := r } :=
  ⟨⟨rfl, rfl, rfl, rfl, rfl, rfl, rfl, rfl⟩, ⟨rfl, rfl⟩⟩

theorem step_eff {shared : Bool} {k : Nat} {s s' : St T} {a : Act T} (hp : PcInv s) (hs : step shared k s a = some s') :
    Eff shared k s s' a := by
  cases a with
  | call op =>
    simp only [step] at hs
    split at hs
    · next hpc =>
      obtain ⟨r, h1, h2⟩ := Option.map_eq_some_iff.mp hs
      obtain ⟨so, _, h3 | h3, h4⟩ := callTry_same h1
      · simp only [afterClaim, h3.1, if_true] at h2
        rw [if_neg (by omega)] at h2
        subst h2
        exact .callGot op hpc so h3.1 h3.2 rfl
      · simp only [afterClaim, if_neg h3.1] at h2
        subst h2
        exact .callScan op hpc so (h4 h3.1) h3.2 rfl
    · cases hs
  | scan =>
    simp only [step] at hs
    split at hs
    · next op hpc =>
      obtain ⟨r, h1, h2⟩ := Option.map_eq_some_iff.mp hs
      simp only [PcInv, hpc] at hp
      obtain ⟨rest, m, hp⟩ := hp
      obtain ⟨so, h3 | h3 | h3⟩ := pstep_same hp h1
      · simp only [afterClaim, h3.1, if_true] at h2
        rw [if_neg (by omega)] at h2
        subst h2
        exact .scanGot op hpc so h3.1 h3.2 rfl
      · simp only [afterClaim, h3.1, h3.2.1, if_true] at h2
        subst h2
        exact .scanRefused op hpc so h3.1 h3.2.1 h3.2.2 rfl
      · obtain ⟨⟨rest', m', h5⟩, h6⟩ := h3
        simp only [afterClaim, h5] at h2
        rw [if_neg (by simp)] at h2
        subst h2
        exact .scanMore op hpc so ⟨_, _, h5⟩ h6 rfl
    · cases hs
  | write =>
    simp only [step] at hs
    split at hs
    · next v x hpc =>
      obtain ⟨r, h1, h2⟩ := Option.map_eq_some_iff.mp hs
      simp only [SRing.step] at h1
      split at h1
      · next hc => cases h1; exact .writeFresh v x hpc hc h2.symm
      · cases h1
    · next f x hpc => cases hs; exact .writeIn f x hpc rfl
    · cases hs
  | writeThrows g =>
    simp only [step] at hs
    split at hs
    · next v x hpc => cases hs; exact .throwFresh v x g hpc rfl
    · next f x hpc => cases hs; exact .throwIn f x g hpc rfl
    · cases hs
  | publish =>
    simp only [step] at hs
    split at hs
    · next op x hpc =>
      obtain ⟨r, h1, h2⟩ := Option.map_eq_some_iff.mp hs
      simp only [SRing.step] at h1
      split at h1
      · next hc => cases h1; exact .publish op x hpc hc h2.symm
      · cases h1
    · cases hs
  | subscribe c =>
    simp only [step, SRing.step, Option.map_some] at hs
    cases hs
    exact .subscribe c rfl
  | run c =>
    simp only [step, lift] at hs
    obtain ⟨r, h1, rfl⟩ := Option.map_eq_some_iff.mp hs
    obtain ⟨p, q1, q2, q3, q4⟩ := run_proc h1
    exact .run c p (same_refl s r).1 (same_refl s r).2 q1 q2 q3 q4
  | look c =>
    simp only [step, lift] at hs
    obtain ⟨r, h1, rfl⟩ := Option.map_eq_some_iff.mp hs
    obtain ⟨p, q1, q2, nx, q3, q4⟩ := look_proc h1
    exact .look c nx p (same_refl s r).1 (same_refl s r).2 q3 q4 q1 q2
  | advance c =>
    simp only [step, lift] at hs
    split at hs
    · next nx av hc =>
      split at hs
      · next hle =>
        obtain ⟨r, h1, h2⟩ := Option.map_eq_some_iff.mp hs
        obtain ⟨p, ⟨_, q1, q2, q3⟩ | ⟨q0, _⟩⟩ := advance_proc hc h1
        · by_cases he : nx = av
          · simp only [onEvent, he, decide_true, if_true] at h2
            subst h2
            exact .event c nx av p ⟨rfl, rfl, rfl, rfl, rfl, rfl, rfl, rfl⟩ hc hle (by rw [if_pos he, he]; exact ⟨rfl, rfl⟩) q2 q1 q3
          · simp only [onEvent, he, decide_false] at h2
            subst h2
            exact .event c nx av p ⟨rfl, rfl, rfl, rfl, rfl, rfl, rfl, rfl⟩ hc hle (by rw [if_neg he]; exact ⟨rfl, rfl⟩) q2 q1 q3
        · exact absurd hle q0
      · next hle =>
        obtain ⟨r, h1, rfl⟩ := Option.map_eq_some_iff.mp hs
        obtain ⟨p, ⟨q0, _⟩ | ⟨_, q1, q2, q3⟩⟩ := advance_proc hc h1
        · exact absurd q0 hle
        · exact .batchEnd c nx av p (same_refl s r).1 (same_refl s r).2 hc (by omega) q2 q1 q3
    · cases hs
  | finish c =>
    simp only [step, lift] at hs
    obtain ⟨r, h1, rfl⟩ := Option.map_eq_some_iff.mp hs
    obtain ⟨p, q1, q2, nx, av, q3, q4⟩ := finish_proc h1
    exact .finish c nx av p (same_refl s r).1 (same_refl s r).2 q3 q4 q1 q2
  | throw c =>
    simp only [step, lift] at hs
    split at hs
    · next hm =>
      obtain ⟨r, h1, rfl⟩ := Option.map_eq_some_iff.mp hs
      obtain ⟨p, q1, nx, av, q2, q3, q4⟩ := throw_proc h1
      simp only [mayThrow, q2] at hm
      subst hm
      exact .throw c nx p (same_refl s r).1 (same_refl s r).2 q2 q4 q3 q1
    · cases hs
  | leave c =>
    simp only [step, lift] at hs
    obtain ⟨r, h1, rfl⟩ := Option.map_eq_some_iff.mp hs
    obtain ⟨p, q1, q2, nx, q3, q4⟩ := leave_proc h1
    exact .leave c nx p (same_refl s r).1 (same_refl s r).2 q3 q4 q1 q2

theorem PcInv.step {shared : Bool} {k : Nat} {s s' : St T} {a : Act T} (hp : PcInv s) (hi : SRing.Inv k s.ring)
    (e : Eff shared k s s' a) : PcInv s' := by
  have proc : ∀ {s s' : St T}, PcInv s → ProcStep s.ring s'.ring → SamePub s s' → PcInv s' := by
    intro s s' hp h1 h2
    simp only [PcInv, h2.pc, h1.pp, h1.nextVal, h1.cursor]
    exact hp
  cases e with
  | callGot op h1 h2 h3 h4 h5 => rw [h5]; simp only [PcInv]; exact ⟨h3, trivial, by rw [h2.cursor, h4]; have := hi.cur_le; omega⟩
  | callScan op h1 h2 h3 h4 h5 => rw [h5]; exact h3
  | scanGot op h1 h2 h3 h4 h5 => rw [h5]; simp only [PcInv]; exact ⟨h3, trivial, by rw [h2.cursor, h4]; have := hi.cur_le; omega⟩
  | scanMore op h1 h2 h3 h4 h5 => rw [h5]; exact h3
  | scanRefused op h1 h2 h3 h4 h6 h5 => rw [h5]; exact h3
  | writeFresh v x h1 h2 h3 => subst h3; simp only [PcInv, h1] at hp ⊢; exact hp
  | writeIn f x h1 h3 => subst h3; simp only [PcInv, h1] at hp ⊢; exact hp
  | throwFresh v x g h1 h3 => subst h3; simp only [PcInv, h1] at hp ⊢; exact hp.1
  | throwIn f x g h1 h3 => subst h3; simp only [PcInv, h1] at hp ⊢; exact hp.1
  | publish op x h1 h2 h3 => subst h3; simp only [PcInv, h1] at hp ⊢; exact hp.1
  | subscribe c h => subst h; exact hp
  | run c h1 h2 h3 h4 h5 h6 h7 => exact proc hp h1 h2
  | look c nx h1 h2 h3 h4 h5 h6 h7 => exact proc hp h1 h2
  | event c nx av h1 h2 h4 hle h3 h5 h6 h7 => exact proc hp h1 h2
  | batchEnd c nx av h1 h2 h3 h4 hgt h5 h6 h7 => exact proc hp h1 h2
  | finish c nx av h1 h2 h3 h4 h5 h6 h7 => exact proc hp h1 h2
  | throw c nx h1 h2 h3 h4 h5 h6 h7 => exact proc hp h1 h2
  | leave c nx h1 h2 h3 h4 h5 h6 h7 => exact proc hp h1 h2

theorem Reach.pcInv {shared : Bool} {k : Nat} (hk : k ≤ 30) {P : Act T → Prop} {v : T} {s : St T} (h : Reach shared k P v s) : PcInv s := by
  induction h with
  | init => rfl
  | step hr _ hok hs ih => exact ih.step (hr.ring.inv hk) (step_eff ih hs)

/-! ### the content of unread events -/

theorem obj_inj {i j : Nat} {a b : Option Nat} (h : obj false i a = obj false j b) : a = b ∧ (a = none → i = j) := by
  cases a <;> cases b <;> simp_all [obj]

structure DInv (shared : Bool) (k : Nat) (s : St T) : Prop where
  refs : ∀ i n, s.ring.slot i = some n → n < s.alloc
  inj : ∀ i j n, s.ring.slot i = some n → s.ring.slot j = some n → i = j
  cnone : ∀ x, s.ring.cursor < x → s.content x = Option.none
  unread : shared = false → ∀ c ∈ s.ring.gating, ∀ x, s.ring.seq c < x → x ≤ s.ring.cursor → s.content x = some (s.heap (objOf shared k s x))

theorem DInv.objNe {k : Nat} {s : St T} (h : DInv false k s) {x y : Int} (hne : slotIdx k x ≠ slotIdx k y) :
    objOf false k s x ≠ objOf false k s y := by
  intro e
  simp only [objOf] at e
  obtain ⟨h1, h2⟩ := obj_inj e
  cases hx : s.ring.slot (slotIdx k x) with
  | none => exact hne (h2 hx)
  | some n => exact hne (h.inj _ _ n hx (h1 ▸ hx))

/-- Steps that only touch the private variables of the producer. -/
theorem DInv.same {shared : Bool} {k : Nat} {s s' : St T} (h : DInv shared k s) (h2 : SameOut s.ring s'.ring) (h3 : s'.heap = s.heap)
    (h4 : s'.alloc = s.alloc) (h5 : s'.content = s.content) : DInv shared k s' := by
  refine ⟨by rw [h2.slot, h4]; exact h.refs, by rw [h2.slot]; exact h.inj, by rw [h2.cursor, h5]; exact h.cnone, ?_⟩
  intro hsh c hc x hx hx'
  rw [h2.gating] at hc; rw [h2.seq] at hx; rw [h2.cursor] at hx'
  rw [h5, h3, objOf, h2.slot]
  exact h.unread hsh c hc x hx hx'

/-- Steps of a processor. -/
theorem DInv.proc {shared : Bool} {k : Nat} {s s' : St T} (h : DInv shared k s) (h1 : ProcStep s.ring s'.ring) (h2 : SamePub s s')
    (hs : ∀ c ∈ s.ring.gating, s.ring.seq c ≤ s'.ring.seq c) : DInv shared k s' := by
  refine ⟨by rw [h1.slot, h2.alloc]; exact h.refs, by rw [h1.slot]; exact h.inj, by rw [h1.cursor, h2.content]; exact h.cnone, ?_⟩
  intro hsh c hc x hx hx'
  rw [h1.gating] at hc; rw [h1.cursor] at hx'
  rw [h2.content, h2.heap, objOf, h1.slot]
  exact h.unread hsh c hc x (by have := hs c hc; omega) hx'

/-- The producer changes the object of the claimed sequence. -/
theorem DInv.inplace {shared : Bool} {k : Nat} (hk : k ≤ 30) {s : St T} (h : DInv shared k s) (hr : SRing.Reach k none s.ring) {x : Int}
    (hx : x = s.ring.nextVal) (hc : s.ring.cursor < x) (t : T) (pc : Pc T) (fl : Nat) :
    DInv shared k { s with heap := upd s.heap (objOf shared k s x) t, pc := pc, failed := fl } := by
  refine ⟨h.refs, h.inj, h.cnone, ?_⟩
  intro hsh c hcg y hy hy'
  subst hsh
  have hne := SRing.C21_claimed_slot_is_free hk hr hcg hc (by omega) hy hy'
  have := h.objNe hne
  simp only [objOf] at this ⊢
  rw [upd_other _ _ this]
  exact h.unread rfl c hcg y hy hy'

theorem DInv.step {shared : Bool} {k : Nat} (hk : k ≤ 30) {s s' : St T} {a : Act T} (h : DInv shared k s) (hp : PcInv s)
    (hr : SRing.Reach k none s.ring) (hok : OkAct s a) (e : Eff shared k s s' a) : DInv shared k s' := by
  have hi := hr.inv hk
  cases e with
  | callGot op h1 h2 h3 h4 h5 => exact h.same h2 (by rw [h5]) (by rw [h5]) (by rw [h5])
  | callScan op h1 h2 h3 h4 h5 => exact h.same h2 (by rw [h5]) (by rw [h5]) (by rw [h5])
  | scanGot op h1 h2 h3 h4 h5 => exact h.same h2 (by rw [h5]) (by rw [h5]) (by rw [h5])
  | scanMore op h1 h2 h3 h4 h5 => exact h.same h2 (by rw [h5]) (by rw [h5]) (by rw [h5])
  | scanRefused op h1 h2 h3 h4 h6 h5 => exact h.same h2 (by rw [h5]) (by rw [h5]) (by rw [h5])
  | writeFresh v x h1 h2 h3 =>
    simp only [PcInv, h1] at hp
    subst h3
    have hnew : ∀ i, s.ring.slot i ≠ some s.alloc := fun i hi => by have := h.refs i _ hi; omega
    refine ⟨?_, ?_, h.cnone, ?_⟩
    · intro i n hn
      simp only [upd_apply] at hn
      split at hn
      · cases hn; simp
      · exact Nat.lt_succ_of_lt (h.refs i n hn)
    · intro i j n hn hn'
      simp only [upd_apply] at hn hn'
      split at hn <;> split at hn'
      · next e1 e2 => rw [e1, e2]
      · cases hn; exact absurd hn' (hnew j)
      · cases hn'; exact absurd hn (hnew i)
      · exact h.inj i j n hn hn'
    · intro hsh c hcg y hy hy'
      subst hsh
      have hne := SRing.C21_claimed_slot_is_free hk hr hcg h2.1 h2.2 hy hy'
      simp only [objOf] at hy ⊢
      rw [upd_other _ _ hne, h.unread rfl c hcg y hy hy']
      rw [upd_other]
      · rfl
      · intro e2
        cases hsl : s.ring.slot (slotIdx k y) with
        | none => rw [hsl] at e2; simp [obj] at e2
        | some n => rw [hsl] at e2; simp only [obj, Obj.fresh.injEq] at e2; subst e2; exact hnew _ hsl
  | writeIn f x h1 h3 =>
    simp only [PcInv, h1] at hp
    subst h3
    exact h.inplace hk hr hp.2.1 hp.2.2 _ _ _
  | throwFresh v x g h1 h3 => subst h3; exact ⟨h.refs, h.inj, h.cnone, h.unread⟩
  | throwIn f x g h1 h3 =>
    simp only [PcInv, h1] at hp
    subst h3
    exact h.inplace hk hr hp.2.1 hp.2.2 _ _ _
  | publish op x h1 h2 h3 =>
    subst h3
    refine ⟨h.refs, h.inj, ?_, ?_⟩
    · intro y hy
      simp only at hy ⊢
      rw [if_neg (by omega)]
      exact h.cnone y (by omega)
    · intro hsh c hcg y hy hy'
      simp only at hcg hy hy' ⊢
      by_cases hyc : s.ring.cursor < y
      · rw [if_pos ⟨hyc, hy'⟩]; rfl
      · rw [if_neg (by omega)]
        exact h.unread hsh c hcg y hy (by omega)
  | subscribe c hs' =>
    subst hs'
    refine ⟨h.refs, h.inj, h.cnone, ?_⟩
    intro hsh d hd y hy hy'
    simp only at hd hy hy' ⊢
    simp only [upd_apply] at hy
    split at hy
    · omega
    · next hdc =>
      rcases List.mem_append.mp hd with hd | hd
      · exact h.unread hsh d hd y hy hy'
      · simp at hd; exact absurd hd hdc
  | run c h1 h2 h3 h4 h5 h6 h7 => exact h.proc h1 h2 (fun d _ => by rw [h6])
  | look c nx h1 h2 h3 h4 h5 h6 h7 => exact h.proc h1 h2 (fun d _ => by rw [h6])
  | event c nx av h1 h2 h4 hle h3 h5 h6 h7 => exact h.proc h1 h2 (fun d _ => by rw [h6])
  | batchEnd c nx av h1 h2 h3 h4 hgt h5 h6 h7 =>
    refine h.proc h1 h2 (fun d hd => ?_)
    rw [h6]
    simp only [upd_apply]
    split
    · next e =>
      subst e
      have := hi.cons d hd
      rw [h4] at this
      simp only [SRing.CInv] at this
      omega
    · exact Int.le_refl _
  | finish c nx av h1 h2 h3 h4 h5 h6 h7 => exact h.proc h1 h2 (fun d _ => by rw [h6])
  | throw c nx h1 h2 h3 h4 h5 h6 h7 =>
    refine h.proc h1 h2 (fun d hd => ?_)
    rw [h6]
    simp only [upd_apply]
    split
    · next e =>
      subst e
      have := hi.cons d hd
      rw [h4] at this
      simp only [SRing.CInv] at this
      omega
    · exact Int.le_refl _
  | leave c nx h1 h2 h3 h4 h5 h6 h7 => exact h.proc h1 h2 (fun d _ => by rw [h6])

theorem DInv.init (shared : Bool) (k : Nat) (v : T) : DInv shared k (St.init v) :=
  ⟨by simp [St.init, SRing.St.init], by simp [St.init, SRing.St.init], fun _ _ => rfl, by simp [St.init, SRing.St.init]⟩

theorem Reach.dInv {shared : Bool} {k : Nat} (hk : k ≤ 30) {P : Act T → Prop} {v : T} {s : St T} (h : Reach shared k P v s) :
    DInv shared k s := by
  induction h with
  | init => exact DInv.init shared k v
  | step hr _ hok hs ih => exact ih.step hk (hr.pcInv hk) hr.ring hok (step_eff (hr.pcInv hk) hs)

/-! ### deliveries -/

/-- Everything published stays as recorded. -/
theorem content_stays {shared : Bool} {k : Nat} {s s' : St T} {a : Act T} (h : DInv shared k s) (e : Eff shared k s s' a) {x : Int} {t : T}
    (hx : s.content x = some t) : s'.content x = some t := by
  cases e with
  | callGot op h1 h2 h3 h4 h5 => rw [h5]; exact hx
  | callScan op h1 h2 h3 h4 h5 => rw [h5]; exact hx
  | scanGot op h1 h2 h3 h4 h5 => rw [h5]; exact hx
  | scanMore op h1 h2 h3 h4 h5 => rw [h5]; exact hx
  | scanRefused op h1 h2 h3 h4 h6 h5 => rw [h5]; exact hx
  | writeFresh v x h1 h2 h3 => subst h3; exact hx
  | writeIn f x h1 h3 => subst h3; exact hx
  | throwFresh v x g h1 h3 => subst h3; exact hx
  | throwIn f x g h1 h3 => subst h3; exact hx
  | publish op y h1 h2 h3 =>
    subst h3
    simp only
    rw [if_neg]
    · exact hx
    · rintro ⟨h4, _⟩; rw [h.cnone x h4] at hx; cases hx
  | subscribe c h => subst h; exact hx
  | run c h1 h2 h3 h4 h5 h6 h7 => rw [h2.content]; exact hx
  | look c nx h1 h2 h3 h4 h5 h6 h7 => rw [h2.content]; exact hx
  | event c nx av h1 h2 h4 hle h3 h5 h6 h7 => rw [h2.content]; exact hx
  | batchEnd c nx av h1 h2 h3 h4 hgt h5 h6 h7 => rw [h2.content]; exact hx
  | finish c nx av h1 h2 h3 h4 h5 h6 h7 => rw [h2.content]; exact hx
  | throw c nx h1 h2 h3 h4 h5 h6 h7 => rw [h2.content]; exact hx
  | leave c nx h1 h2 h3 h4 h5 h6 h7 => rw [h2.content]; exact hx

/-- The newest handled event, where the processor stands. -/
def HeadInv (r : SRing.St (Option Nat)) (c : Nat) : Prop :=
  match r.cp c with
  | .idle => r.dlog c = [] ∨ ∃ l, r.dlog c = (r.seq c, true) :: l
  | .wait _ => r.dlog c = [] ∨ ∃ l, r.dlog c = (r.seq c, true) :: l
  | .batch nx av => nx = av + 1 → ∃ l, r.dlog c = (av, true) :: l
  | .handle nx av => ∃ l, r.dlog c = (nx, decide (nx = av)) :: l

structure LogInv (shared : Bool) (s : St T) (c : Nat) : Prop where
  dl : (s.dl c).map (·.1) = ((s.ring.dlog c).filter (·.2)).map (·.1)
  dc : s.dc c = ((s.ring.dlog c).filter (fun p => !p.2)).length
  head : HeadInv s.ring c
  val : shared = false → ∀ e ∈ s.dl c, s.content e.1 = some e.2.2

theorem LogInv.congr {shared : Bool} {s s' : St T} {c : Nat} (h : LogInv shared s c) (h1 : s'.dl c = s.dl c) (h2 : s'.dc c = s.dc c)
    (h3 : s'.ring.dlog c = s.ring.dlog c) (h4 : s'.ring.cp c = s.ring.cp c) (h5 : s'.ring.seq c = s.ring.seq c)
    (h6 : ∀ x t, s.content x = some t → s'.content x = some t) : LogInv shared s' c := by
  refine ⟨by rw [h1, h3]; exact h.dl, by rw [h2, h3]; exact h.dc, ?_, ?_⟩
  · have := h.head
    simp only [HeadInv, h3, h4, h5] at this ⊢
    exact this
  · intro hsh e he
    rw [h1] at he
    exact h6 _ _ (h.val hsh e he)

/-- A processor moves without handling an event. -/
theorem LogInv.move {shared : Bool} {s s' : St T} {c : Nat} (h : LogInv shared s c) (h2 : SamePub s s') (h3 : SameSub s s')
    (h7 : s'.ring.dlog = s.ring.dlog) (hh : HeadInv s'.ring c) : LogInv shared s' c := by
  refine ⟨by rw [h3.dl, h7]; exact h.dl, by rw [h3.dc, h7]; exact h.dc, hh, ?_⟩
  intro hsh e he
  rw [h3.dl] at he
  rw [h2.content]; exact h.val hsh e he

theorem LogInv.step {shared : Bool} {k : Nat} (hk : k ≤ 30) {s s' : St T} {a : Act T} (hd : DInv shared k s)
    (hr : SRing.Reach k none s.ring) (hok : OkAct s a) (e : Eff shared k s s' a) (h : ∀ c ∈ s.ring.gating, LogInv shared s c) :
    ∀ c ∈ s'.ring.gating, LogInv shared s' c := by
  have hi := hr.inv hk
  have hst := fun x t => content_stays hd e (x := x) (t := t)
  have other : ∀ (c d : Nat), c ≠ d → ProcStep s.ring s'.ring → s'.dl c = s.dl c → s'.dc c = s.dc c →
      s'.ring.dlog c = s.ring.dlog c → s'.ring.cp c = s.ring.cp c → s'.ring.seq c = s.ring.seq c → c ∈ s'.ring.gating → LogInv shared s' c := by
    intro c d _ hpr h1 h2 h3 h4 h5 hg
    exact (h c (hpr.gating ▸ hg)).congr h1 h2 h3 h4 h5 hst
  cases e with
  | callGot op h1 h2 h3 h4 h5 =>
    intro c hc; rw [h2.gating] at hc
    exact (h c hc).congr (by rw [h5]) (by rw [h5]) (by rw [h2.dlog]) (by rw [h2.cp]) (by rw [h2.seq]) hst
  | callScan op h1 h2 h3 h4 h5 =>
    intro c hc; rw [h2.gating] at hc
    exact (h c hc).congr (by rw [h5]) (by rw [h5]) (by rw [h2.dlog]) (by rw [h2.cp]) (by rw [h2.seq]) hst
  | scanGot op h1 h2 h3 h4 h5 =>
    intro c hc; rw [h2.gating] at hc
    exact (h c hc).congr (by rw [h5]) (by rw [h5]) (by rw [h2.dlog]) (by rw [h2.cp]) (by rw [h2.seq]) hst
  | scanMore op h1 h2 h3 h4 h5 =>
    intro c hc; rw [h2.gating] at hc
    exact (h c hc).congr (by rw [h5]) (by rw [h5]) (by rw [h2.dlog]) (by rw [h2.cp]) (by rw [h2.seq]) hst
  | scanRefused op h1 h2 h3 h4 h6 h5 =>
    intro c hc; rw [h2.gating] at hc
    exact (h c hc).congr (by rw [h5]) (by rw [h5]) (by rw [h2.dlog]) (by rw [h2.cp]) (by rw [h2.seq]) hst
  | writeFresh v x h1 h2 h3 => subst h3; intro c hc; exact (h c hc).congr rfl rfl rfl rfl rfl hst
  | writeIn f x h1 h3 => subst h3; intro c hc; exact (h c hc).congr rfl rfl rfl rfl rfl hst
  | throwFresh v x g h1 h3 => subst h3; intro c hc; exact (h c hc).congr rfl rfl rfl rfl rfl hst
  | throwIn f x g h1 h3 => subst h3; intro c hc; exact (h c hc).congr rfl rfl rfl rfl rfl hst
  | publish op y h1 h2 h3 => subst h3; intro c hc; exact (h c hc).congr rfl rfl rfl rfl rfl hst
  | subscribe d hs' =>
    subst hs'
    intro c hc
    by_cases hcd : c = d
    · subst hcd
      refine ⟨by simp, by simp, ?_, by simp⟩
      have : s.ring.cp c = .idle := hok.2
      simp [HeadInv, this]
    · have hg : c ∈ s.ring.gating := by
        rcases List.mem_append.mp hc with hc | hc
        · exact hc
        · simp at hc; exact absurd hc hcd
      exact (h c hg).congr (upd_other _ _ hcd) (upd_other _ _ hcd) (upd_other _ _ hcd) rfl (upd_other _ _ hcd) hst
  | run d h1 h2 h3 h4 h5 h6 h7 =>
    intro c hc
    by_cases hcd : c = d
    · subst hcd
      have hl := h c (h1.gating ▸ hc)
      refine hl.move h2 h3 h7 ?_
      have := hl.head
      simp only [HeadInv, h4] at this
      simp only [HeadInv, h5, upd_same, h6, h7]
      exact this
    · exact other c d hcd h1 (by rw [h3.dl]) (by rw [h3.dc]) (by rw [h7]) (by rw [h5, upd_other _ _ hcd]) (by rw [h6]) hc
  | look d nx h1 h2 h3 h4 h5 h6 h7 =>
    intro c hc
    by_cases hcd : c = d
    · subst hcd
      have hl := h c (h1.gating ▸ hc)
      refine hl.move h2 h3 h7 ?_
      have hh := hl.head
      rcases h5 with h5 | ⟨hle, h5⟩
      · simp only [HeadInv, h4] at hh
        simp only [HeadInv, h5, h4, h6, h7]
        exact hh
      · simp only [HeadInv, h5, upd_same]
        omega
    · refine other c d hcd h1 (by rw [h3.dl]) (by rw [h3.dc]) (by rw [h7]) ?_ (by rw [h6]) hc
      rcases h5 with h5 | ⟨_, h5⟩
      · rw [h5]
      · rw [h5, upd_other _ _ hcd]
  | event d nx av h1 h2 h4 hle h3 h5 h6 h7 =>
    intro c hc
    by_cases hcd : c = d
    · subst hcd
      have hg := h1.gating ▸ hc
      have hl := h c hg
      by_cases he : nx = av
      · rw [if_pos he] at h3
        refine ⟨?_, ?_, ?_, ?_⟩
        · rw [h3.1, h7]; simp [he, hl.dl]
        · rw [h3.2, h7]; simp [he, hl.dc]
        · simp [HeadInv, h5, h7]
        · intro hsh e hm
          rw [h3.1] at hm
          simp only [upd_same, List.mem_cons] at hm
          rcases hm with rfl | hm
          · rw [h2.content]
            have hc' := hi.cons c hg
            rw [h4] at hc'
            simp only [SRing.CInv] at hc'
            exact hd.unread hsh c hg nx hc'.1 (by omega)
          · rw [h2.content]; exact hl.val hsh e hm
      · rw [if_neg he] at h3
        refine ⟨?_, ?_, ?_, ?_⟩
        · rw [h3.1, h7]; simp [he, hl.dl]
        · rw [h3.2, h7]; simp [he, hl.dc]
        · simp [HeadInv, h5, h7]
        · intro hsh e hm
          rw [h3.1] at hm
          rw [h2.content]; exact hl.val hsh e hm
    · refine other c d hcd h1 ?_ ?_ (by rw [h7, upd_other _ _ hcd]) (by rw [h5, upd_other _ _ hcd]) (by rw [h6]) hc
      · split at h3
        · rw [h3.1, upd_other _ _ hcd]
        · rw [h3.1]
      · split at h3
        · rw [h3.2]
        · rw [h3.2, upd_other _ _ hcd]
  | batchEnd d nx av h1 h2 h3 h4 hgt h5 h6 h7 =>
    intro c hc
    by_cases hcd : c = d
    · subst hcd
      have hg := h1.gating ▸ hc
      have hl := h c hg
      refine hl.move h2 h3 h7 ?_
      have hh := hl.head
      have hc' := hi.cons c hg
      rw [h4] at hc'
      simp only [SRing.CInv] at hc'
      simp only [HeadInv, h4] at hh
      simp only [HeadInv, h5, upd_same, h6, h7]
      exact .inr (hh (by omega))
    · exact other c d hcd h1 (by rw [h3.dl]) (by rw [h3.dc]) (by rw [h7]) (by rw [h5, upd_other _ _ hcd]) (by rw [h6, upd_other _ _ hcd]) hc
  | finish d nx av h1 h2 h3 h4 h5 h6 h7 =>
    intro c hc
    by_cases hcd : c = d
    · subst hcd
      have hl := h c (h1.gating ▸ hc)
      refine hl.move h2 h3 h7 ?_
      have hh := hl.head
      simp only [HeadInv, h4] at hh
      simp only [HeadInv, h5, upd_same, h7]
      intro hx
      have : nx = av := by omega
      subst this
      simpa using hh
    · exact other c d hcd h1 (by rw [h3.dl]) (by rw [h3.dc]) (by rw [h7]) (by rw [h5, upd_other _ _ hcd]) (by rw [h6]) hc
  | throw d nx h1 h2 h3 h4 h5 h6 h7 =>
    intro c hc
    by_cases hcd : c = d
    · subst hcd
      have hl := h c (h1.gating ▸ hc)
      refine hl.move h2 h3 h7 ?_
      have hh := hl.head
      simp only [HeadInv, h4] at hh
      simp only [HeadInv, h5, upd_same, h6, h7]
      exact .inr (by simpa using hh)
    · exact other c d hcd h1 (by rw [h3.dl]) (by rw [h3.dc]) (by rw [h7]) (by rw [h5, upd_other _ _ hcd]) (by rw [h6, upd_other _ _ hcd]) hc
  | leave d nx h1 h2 h3 h4 h5 h6 h7 =>
    intro c hc
    by_cases hcd : c = d
    · subst hcd
      have hl := h c (h1.gating ▸ hc)
      refine hl.move h2 h3 h7 ?_
      have hh := hl.head
      simp only [HeadInv, h4] at hh
      simp only [HeadInv, h5, upd_same, h6, h7]
      exact hh
    · exact other c d hcd h1 (by rw [h3.dl]) (by rw [h3.dc]) (by rw [h7]) (by rw [h5, upd_other _ _ hcd]) (by rw [h6]) hc

theorem Reach.logInv {shared : Bool} {k : Nat} (hk : k ≤ 30) {P : Act T → Prop} {v : T} {s : St T} (h : Reach shared k P v s) :
    ∀ c ∈ s.ring.gating, LogInv shared s c := by
  induction h with
  | init => intro c hc; simp [St.init, SRing.St.init] at hc
  | step hr _ hok hs ih => exact LogInv.step hk (hr.dInv hk) hr.ring hok (step_eff (hr.pcInv hk) hs) ih

/-! ### the window behind the producer -/

/-- What holds for sequences less than the ring size behind the last claimed one. -/
structure WInv (k : Nat) (s : St T) : Prop where
  win : ∀ x, 0 ≤ x → x ≤ s.ring.cursor → s.ring.nextVal < x + 2 ^ k → s.content x = some (s.heap (objOf false k s x))
  held : ∀ c ∈ s.ring.gating, ∀ e ∈ s.dl c, 0 ≤ e.1 ∧ e.1 ≤ s.ring.cursor ∧ (s.ring.nextVal < e.1 + 2 ^ k → e.2.1 = objOf false k s e.1)

theorem slot_ne {k : Nat} (hk : k ≤ 30) {x y : Int} (h1 : y < x) (h2 : x < y + 2 ^ k) : slotIdx k y ≠ slotIdx k x := by
  intro he
  rw [slotIdx_eq hk, slotIdx_eq hk, idx_eq_iff] at he
  have := emod_inj (SRing.pow_pos' k) he (by omega) (by omega)
  omega

theorem WInv.same {k : Nat} {s s' : St T} (h : WInv k s) (h1 : s'.ring.slot = s.ring.slot) (h2 : s'.ring.cursor = s.ring.cursor)
    (h3 : s.ring.nextVal ≤ s'.ring.nextVal) (h4 : s'.heap = s.heap) (h5 : s'.content = s.content) (h6 : s'.dl = s.dl)
    (h7 : s'.ring.gating = s.ring.gating) : WInv k s' := by
  constructor
  · intro x hx hx' hw
    rw [h5, h4, objOf, h1]; exact h.win x hx (h2 ▸ hx') (by omega)
  · intro c hc e he
    obtain ⟨q1, q2, q3⟩ := h.held c (h7 ▸ hc) e (h6 ▸ he)
    refine ⟨q1, h2 ▸ q2, fun hw => ?_⟩
    rw [objOf, h1]; exact q3 (by omega)

theorem WInv.inplace {k : Nat} (hk : k ≤ 30) {s : St T} (h : WInv k s) (hd : DInv false k s) {x : Int}
    (hx : x = s.ring.nextVal) (hc : s.ring.cursor < x) (t : T) (pc : Pc T) (fl : Nat) :
    WInv k { s with heap := upd s.heap (objOf false k s x) t, pc := pc, failed := fl } := by
  constructor
  · intro y hy hy' hw
    simp only at hy' hw ⊢
    have := hd.objNe (slot_ne hk (x := x) (y := y) (by omega) (by omega))
    simp only [objOf] at this ⊢
    rw [upd_other _ _ this]
    exact h.win y hy hy' hw
  · exact h.held

theorem WInv.step {k : Nat} (hk : k ≤ 30) {s s' : St T} {a : Act T} (h : WInv k s) (hd : DInv false k s) (hp : PcInv s)
    (hi : SRing.Inv k s.ring) (e : Eff false k s s' a) : WInv k s' := by
  cases e with
  | callGot op h1 h2 h3 h4 h5 => exact h.same h2.slot h2.cursor (by omega) (by rw [h5]) (by rw [h5]) (by rw [h5]) h2.gating
  | callScan op h1 h2 h3 h4 h5 => exact h.same h2.slot h2.cursor (by omega) (by rw [h5]) (by rw [h5]) (by rw [h5]) h2.gating
  | scanGot op h1 h2 h3 h4 h5 => exact h.same h2.slot h2.cursor (by omega) (by rw [h5]) (by rw [h5]) (by rw [h5]) h2.gating
  | scanMore op h1 h2 h3 h4 h5 => exact h.same h2.slot h2.cursor (by omega) (by rw [h5]) (by rw [h5]) (by rw [h5]) h2.gating
  | scanRefused op h1 h2 h3 h4 h6 h5 => exact h.same h2.slot h2.cursor (by omega) (by rw [h5]) (by rw [h5]) (by rw [h5]) h2.gating
  | writeFresh v x h1 h2 h3 =>
    simp only [PcInv, h1] at hp
    subst h3
    constructor
    · intro y hy hy' hw
      simp only at hy' hw ⊢
      have hne := slot_ne hk (x := x) (y := y) (by omega) (by omega)
      simp only [objOf]
      rw [upd_other _ _ hne, h.win y hy hy' hw, upd_other]
      · rfl
      · intro e2
        cases hsl : s.ring.slot (slotIdx k y) with
        | none => rw [hsl] at e2; simp [obj] at e2
        | some n =>
          rw [hsl] at e2; simp only [obj, Obj.fresh.injEq] at e2
          have := hd.refs _ _ hsl; omega
    · intro c hc e he
      obtain ⟨q1, q2, q3⟩ := h.held c hc e he
      refine ⟨q1, q2, fun hw => ?_⟩
      simp only at hw
      have hne := slot_ne hk (x := x) (y := e.1) (by omega) (by omega)
      simp only [objOf]
      rw [upd_other _ _ hne]
      exact q3 hw
  | writeIn f x h1 h3 =>
    simp only [PcInv, h1] at hp
    subst h3; exact h.inplace hk hd hp.2.1 hp.2.2 _ _ _
  | throwFresh v x g h1 h3 => subst h3; exact h.same rfl rfl (by simp) rfl rfl rfl rfl
  | throwIn f x g h1 h3 =>
    simp only [PcInv, h1] at hp
    subst h3; exact h.inplace hk hd hp.2.1 hp.2.2 _ _ _
  | publish op x h1 h2 h3 =>
    subst h3
    constructor
    · intro y hy hy' hw
      simp only at hy' hw ⊢
      by_cases hyc : s.ring.cursor < y
      · rw [if_pos ⟨hyc, hy'⟩]; rfl
      · rw [if_neg (by omega)]; exact h.win y hy (by omega) hw
    · intro c hc e he
      obtain ⟨q1, q2, q3⟩ := h.held c hc e he
      exact ⟨q1, by simp only; omega, q3⟩
  | subscribe c hs' =>
    subst hs'
    constructor
    · exact h.win
    · intro d hd e he
      simp only [upd_apply] at he
      split at he
      · simp at he
      · next hdc =>
        refine h.held d ?_ e he
        rcases List.mem_append.mp hd with hd | hd
        · exact hd
        · simp at hd; exact absurd hd hdc
  | run c h1 h2 h3 h4 h5 h6 h7 => exact h.same h1.slot h1.cursor (by rw [h1.nextVal]) h2.heap h2.content h3.dl h1.gating
  | look c nx h1 h2 h3 h4 h5 h6 h7 => exact h.same h1.slot h1.cursor (by rw [h1.nextVal]) h2.heap h2.content h3.dl h1.gating
  | event c nx av h1 h2 h4 hle h3 h5 h6 h7 =>
    have hobj : ∀ x, objOf false k s' x = objOf false k s x := fun x => by rw [objOf, objOf, h1.slot]
    constructor
    · intro x hx hx' hw
      rw [h2.content, h2.heap, hobj]
      exact h.win x hx (h1.cursor ▸ hx') (h1.nextVal ▸ hw)
    · intro d hd' e he
      rw [h1.gating] at hd'
      have old : e ∈ s.dl d → 0 ≤ e.1 ∧ e.1 ≤ s'.ring.cursor ∧ (s'.ring.nextVal < e.1 + 2 ^ k → e.2.1 = objOf false k s' e.1) := by
        intro he
        rw [h1.cursor, h1.nextVal, hobj]; exact h.held d hd' e he
      split at h3
      · next heq =>
        rw [h3.1] at he
        simp only [upd_apply] at he
        split at he
        · next hdc =>
          subst hdc
          rcases List.mem_cons.mp he with rfl | he
          · have hc' := hi.cons d hd'
            have := hi.seq_ge d hd'
            rw [h4] at hc'
            simp only [SRing.CInv] at hc'
            refine ⟨by simp only; omega, by rw [h1.cursor]; simp only; omega, fun _ => by rw [hobj]⟩
          · exact old he
        · exact old he
      · rw [h3.1] at he; exact old he
  | batchEnd c nx av h1 h2 h3 h4 hgt h5 h6 h7 => exact h.same h1.slot h1.cursor (by rw [h1.nextVal]) h2.heap h2.content h3.dl h1.gating
  | finish c nx av h1 h2 h3 h4 h5 h6 h7 => exact h.same h1.slot h1.cursor (by rw [h1.nextVal]) h2.heap h2.content h3.dl h1.gating
  | throw c nx h1 h2 h3 h4 h5 h6 h7 => exact h.same h1.slot h1.cursor (by rw [h1.nextVal]) h2.heap h2.content h3.dl h1.gating
  | leave c nx h1 h2 h3 h4 h5 h6 h7 => exact h.same h1.slot h1.cursor (by rw [h1.nextVal]) h2.heap h2.content h3.dl h1.gating

theorem Reach.wInv {k : Nat} (hk : k ≤ 30) {P : Act T → Prop} {v : T} {s : St T} (h : Reach false k P v s) : WInv k s := by
  induction h with
  | init => exact ⟨fun x h1 h2 => by simp [St.init, SRing.St.init] at h2; omega, fun c hc => by simp [St.init, SRing.St.init] at hc⟩
  | step hr _ hok hs ih => exact ih.step hk (hr.dInv hk) (hr.pcInv hk) (hr.ring.inv hk) (step_eff (hr.pcInv hk) hs)

/-! ### publications that make a new object only -/

/-- All publications are `publish(const T &)` without cloner. -/
def FreshOnly : Act T → Prop
  | .call (.inplace _) => False
  | _ => True

/-- Objects that exist. -/
def Old (s : St T) (o : Obj) : Prop := ∀ n, o = .fresh n → n < s.alloc

structure FInv (shared : Bool) (k : Nat) (s : St T) : Prop where
  pc : match s.pc with
    | .claiming op => ∃ v, op = .fresh v
    | .writing op _ => ∃ v, op = .fresh v
    | _ => True
  pub : ∀ x t, s.content x = some t → ∃ r, s.ring.pub x = some r ∧ Old s (obj shared (slotIdx k x) r) ∧
    s.heap (obj shared (slotIdx k x) r) = t
  held : ∀ c, ∀ e ∈ s.dl c, Old s e.2.1 ∧ s.heap e.2.1 = e.2.2

theorem FInv.same {shared : Bool} {k : Nat} {s s' : St T} (h : FInv shared k s)
    (hpc : match s'.pc with
      | .claiming op => ∃ v, op = .fresh v
      | .writing op _ => ∃ v, op = .fresh v
      | _ => True)
    (h1 : s'.ring.pub = s.ring.pub) (h2 : s'.content = s.content) (h3 : s'.heap = s.heap) (h4 : s'.alloc = s.alloc)
    (h5 : s'.dl = s.dl) : FInv shared k s' := by
  refine ⟨hpc, ?_, ?_⟩
  · intro x t hx; simp only [h1, h2, h3, Old, h4] at hx ⊢; exact h.pub x t hx
  · intro c e he; simp only [h3, Old, h4]; exact h.held c e (h5 ▸ he)

theorem old_slot {shared : Bool} {k : Nat} {s : St T} (hd : DInv shared k s) (x : Int) : Old s (objOf shared k s x) := by
  intro n hn
  simp only [objOf] at hn
  cases hsl : s.ring.slot (slotIdx k x) with
  | none => rw [hsl] at hn; simp only [obj] at hn; split at hn <;> cases hn
  | some m => rw [hsl] at hn; simp only [obj, Obj.fresh.injEq] at hn; subst hn; exact hd.refs _ _ hsl

theorem FInv.step {shared : Bool} {k : Nat} {s s' : St T} {a : Act T} (h : FInv shared k s) (hd : DInv shared k s) (hP : FreshOnly a)
    (e : Eff shared k s s' a) : FInv shared k s' := by
  cases e with
  | callGot op h1 h2 h3 h4 h5 =>
    refine h.same ?_ h2.pub (by rw [h5]) (by rw [h5]) (by rw [h5]) (by rw [h5])
    rw [h5]; cases op with
    | fresh v => exact ⟨v, rfl⟩
    | inplace f => exact hP.elim
  | callScan op h1 h2 h3 h4 h5 =>
    refine h.same ?_ h2.pub (by rw [h5]) (by rw [h5]) (by rw [h5]) (by rw [h5])
    rw [h5]; cases op with
    | fresh v => exact ⟨v, rfl⟩
    | inplace f => exact hP.elim
  | scanGot op h1 h2 h3 h4 h5 =>
    have := h.pc; rw [h1] at this
    refine h.same ?_ h2.pub (by rw [h5]) (by rw [h5]) (by rw [h5]) (by rw [h5])
    rw [h5]; exact this
  | scanMore op h1 h2 h3 h4 h5 =>
    have := h.pc; rw [h1] at this
    refine h.same ?_ h2.pub (by rw [h5]) (by rw [h5]) (by rw [h5]) (by rw [h5])
    rw [h5]; exact this
  | scanRefused op h1 h2 h3 h4 h6 h5 =>
    refine h.same ?_ h2.pub (by rw [h5]) (by rw [h5]) (by rw [h5]) (by rw [h5])
    rw [h5]; trivial
  | writeFresh v x h1 h2 h3 =>
    subst h3
    have key : ∀ o, Old s o → (∀ n, o = .fresh n → n < s.alloc + 1) ∧ upd s.heap (.fresh s.alloc) v o = s.heap o := by
      intro o ho
      refine ⟨fun n hn => Nat.lt_succ_of_lt (ho n hn), upd_other _ _ ?_⟩
      intro e; have := ho _ e; omega
    refine ⟨trivial, ?_, ?_⟩
    · intro y t hy
      obtain ⟨r, q1, q2, q3⟩ := h.pub y t hy
      exact ⟨r, q1, (key _ q2).1, by simp only; rw [(key _ q2).2]; exact q3⟩
    · intro c e he
      obtain ⟨q2, q3⟩ := h.held c e he
      exact ⟨(key _ q2).1, by simp only; rw [(key _ q2).2]; exact q3⟩
  | writeIn f x h1 h3 => have := h.pc; rw [h1] at this; obtain ⟨v, hv⟩ := this; cases hv
  | throwFresh v x g h1 h3 => subst h3; exact h.same trivial rfl rfl rfl rfl rfl
  | throwIn f x g h1 h3 => have := h.pc; rw [h1] at this; obtain ⟨v, hv⟩ := this; cases hv
  | publish op x h1 h2 h3 =>
    subst h3
    refine ⟨trivial, ?_, h.held⟩
    intro y t hy
    simp only at hy ⊢
    by_cases hyc : s.ring.cursor < y ∧ y ≤ x
    · rw [if_pos hyc] at hy ⊢
      cases hy
      exact ⟨_, rfl, old_slot hd y, rfl⟩
    · rw [if_neg hyc] at hy ⊢
      exact h.pub y t hy
  | subscribe c hs' =>
    subst hs'
    refine ⟨h.pc, h.pub, ?_⟩
    intro d e he
    simp only [upd_apply] at he
    split at he
    · simp at he
    · exact h.held d e he
  | run c h1 h2 h3 h4 h5 h6 h7 => exact h.same (by rw [h2.pc]; exact h.pc) h1.pub h2.content h2.heap h2.alloc h3.dl
  | look c nx h1 h2 h3 h4 h5 h6 h7 => exact h.same (by rw [h2.pc]; exact h.pc) h1.pub h2.content h2.heap h2.alloc h3.dl
  | event c nx av h1 h2 h4 hle h3 h5 h6 h7 =>
    refine ⟨by rw [h2.pc]; exact h.pc, ?_, ?_⟩
    · intro x t hx; simp only [h1.pub, h2.content, h2.heap, Old, h2.alloc] at hx ⊢; exact h.pub x t hx
    · intro d e he
      simp only [h2.heap, Old, h2.alloc]
      split at h3
      · rw [h3.1] at he
        simp only [upd_apply] at he
        split at he
        · rcases List.mem_cons.mp he with rfl | he
          · exact ⟨old_slot hd nx, rfl⟩
          · next hdc _ => exact h.held c e he
        · exact h.held d e he
      · rw [h3.1] at he; exact h.held d e he
  | batchEnd c nx av h1 h2 h3 h4 hgt h5 h6 h7 => exact h.same (by rw [h2.pc]; exact h.pc) h1.pub h2.content h2.heap h2.alloc h3.dl
  | finish c nx av h1 h2 h3 h4 h5 h6 h7 => exact h.same (by rw [h2.pc]; exact h.pc) h1.pub h2.content h2.heap h2.alloc h3.dl
  | throw c nx h1 h2 h3 h4 h5 h6 h7 => exact h.same (by rw [h2.pc]; exact h.pc) h1.pub h2.content h2.heap h2.alloc h3.dl
  | leave c nx h1 h2 h3 h4 h5 h6 h7 => exact h.same (by rw [h2.pc]; exact h.pc) h1.pub h2.content h2.heap h2.alloc h3.dl

theorem Reach.fInv {shared : Bool} {k : Nat} (hk : k ≤ 30) {v : T} {s : St T} (h : Reach shared k FreshOnly v s) : FInv shared k s := by
  induction h with
  | init => exact ⟨trivial, fun x t hx => by simp [St.init] at hx, fun c e he => by simp [St.init] at he⟩
  | step hr hP hok hs ih => exact ih.step (hr.dInv hk) hP (step_eff (hr.pcInv hk) hs)

/-! ### counting -/

structure CntInv (s : St T) : Prop where
  next : match s.pc with
    | .idle | .claiming _ => s.ring.nextVal + 1 = s.done + s.failed
    | .writing _ _ | .ready _ _ => s.ring.nextVal = s.done + s.failed
  ge : (s.done : Int) ≤ s.ring.cursor + 1

theorem CntInv.proc {s s' : St T} (h : CntInv s) (h1 : ProcStep s.ring s'.ring) (h2 : SamePub s s') : CntInv s' := by
  refine ⟨?_, by rw [h2.done, h1.cursor]; exact h.ge⟩
  rw [h2.pc, h1.nextVal, h2.done, h2.failed]; exact h.next

theorem CntInv.step {shared : Bool} {k : Nat} {s s' : St T} {a : Act T} (h : CntInv s) (e : Eff shared k s s' a) :
    CntInv s' := by
  have hn := h.next
  have hg := h.ge
  cases e with
  | callGot op h1 h2 h3 h4 h5 =>
    rw [h1] at hn
    refine ⟨?_, ?_⟩
    · rw [h5]; simp only at hn ⊢; omega
    · rw [h2.cursor, h5]; exact hg
  | callScan op h1 h2 h3 h4 h5 =>
    rw [h1] at hn
    refine ⟨?_, ?_⟩
    · rw [h5]; simp only at hn ⊢; omega
    · rw [h2.cursor, h5]; exact hg
  | scanGot op h1 h2 h3 h4 h5 =>
    rw [h1] at hn
    refine ⟨?_, ?_⟩
    · rw [h5]; simp only at hn ⊢; omega
    · rw [h2.cursor, h5]; exact hg
  | scanMore op h1 h2 h3 h4 h5 =>
    rw [h1] at hn
    refine ⟨?_, ?_⟩
    · rw [h5]; simp only at hn ⊢; omega
    · rw [h2.cursor, h5]; exact hg
  | scanRefused op h1 h2 h3 h4 h6 h5 =>
    rw [h1] at hn
    refine ⟨?_, ?_⟩
    · rw [h5]; simp only at hn ⊢; omega
    · rw [h2.cursor, h5]; exact hg
  | writeFresh v x h1 h2 h3 => subst h3; rw [h1] at hn; exact ⟨hn, hg⟩
  | writeIn f x h1 h3 => subst h3; rw [h1] at hn; exact ⟨hn, hg⟩
  | throwFresh v x g h1 h3 => subst h3; rw [h1] at hn; refine ⟨?_, hg⟩; simp only at hn ⊢; push_cast; omega
  | throwIn f x g h1 h3 => subst h3; rw [h1] at hn; refine ⟨?_, hg⟩; simp only at hn ⊢; push_cast; omega
  | publish op x h1 h2 h3 =>
    subst h3; rw [h1] at hn
    refine ⟨?_, ?_⟩
    · simp only at hn ⊢; push_cast; omega
    · simp only; push_cast; omega
  | subscribe c hs' => subst hs'; exact ⟨hn, hg⟩
  | run c h1 h2 h3 h4 h5 h6 h7 => exact h.proc h1 h2
  | look c nx h1 h2 h3 h4 h5 h6 h7 => exact h.proc h1 h2
  | event c nx av h1 h2 h4 hle h3 h5 h6 h7 => exact h.proc h1 h2
  | batchEnd c nx av h1 h2 h3 h4 hgt h5 h6 h7 => exact h.proc h1 h2
  | finish c nx av h1 h2 h3 h4 h5 h6 h7 => exact h.proc h1 h2
  | throw c nx h1 h2 h3 h4 h5 h6 h7 => exact h.proc h1 h2
  | leave c nx h1 h2 h3 h4 h5 h6 h7 => exact h.proc h1 h2

theorem Reach.cntInv {shared : Bool} {k : Nat} (hk : k ≤ 30) {P : Act T → Prop} {v : T} {s : St T} (h : Reach shared k P v s) :
    CntInv s := by
  induction h with
  | init => exact ⟨by simp [St.init, SRing.St.init], by simp [St.init, SRing.St.init]⟩
  | step hr _ hok hs ih => exact ih.step (step_eff (hr.pcInv hk) hs)

/-! ### deliveries and successful calls -/

/-- The content an event has after a successful call. -/
def Op.Gives : Op T → T → Prop
  | .fresh v, t => t = v
  | .inplace f, t => ∃ w, t = f w

/-- Sequence `x` was published by a successful call. -/
def Called (s : St T) (x : Int) : Prop := ∃ op, (x, op) ∈ s.calls

structure GInv (shared : Bool) (k : Nat) (s : St T) : Prop where
  rdy : ∀ op x, s.pc = .ready op x → op.Gives (s.heap (objOf shared k s x))
  res : ∀ x op, (x, op) ∈ s.calls → x ≤ s.ring.cursor ∧ ∃ t, s.content x = some t ∧ op.Gives t
  cur : s.ring.cursor = -1 ∨ Called s s.ring.cursor
  len : s.calls.length = s.done
  sorted : (s.calls.map (·.1)).Pairwise (· > ·)
  batch : ∀ c ∈ s.ring.gating, ∀ nx av, (s.ring.cp c = .batch nx av ∨ s.ring.cp c = .handle nx av) → Called s av
  dl : ∀ c ∈ s.ring.gating, ∀ e ∈ s.dl c, Called s e.1

theorem GInv.same {shared : Bool} {k : Nat} {s s' : St T} (h : GInv shared k s) (h2 : SameOut s.ring s'.ring)
    (hpc : ∀ op x, s'.pc ≠ .ready op x) (h5 : s'.content = s.content) (h6 : s'.calls = s.calls) (h7 : s'.dl = s.dl) (h8 : s'.done = s.done) :
    GInv shared k s' := by
  refine ⟨fun op x hx => absurd hx (hpc op x), ?_, ?_, by rw [h6, h8]; exact h.len, by rw [h6]; exact h.sorted, ?_, ?_⟩
  · rw [h6, h2.cursor, h5]; exact h.res
  · simp only [Called, h6, h2.cursor]; exact h.cur
  · simp only [Called, h6, h2.gating, h2.cp]; exact h.batch
  · simp only [Called, h6, h2.gating, h7]; exact h.dl

theorem GInv.proc {shared : Bool} {k : Nat} {s s' : St T} (h : GInv shared k s) (h1 : ProcStep s.ring s'.ring) (h2 : SamePub s s')
    (hb : ∀ c ∈ s.ring.gating, ∀ nx av, (s'.ring.cp c = .batch nx av ∨ s'.ring.cp c = .handle nx av) → Called s av)
    (hd : ∀ c ∈ s.ring.gating, ∀ e ∈ s'.dl c, Called s e.1) : GInv shared k s' := by
  refine ⟨?_, ?_, ?_, by rw [h2.calls, h2.done]; exact h.len, by rw [h2.calls]; exact h.sorted, ?_, ?_⟩
  · intro op x hx
    rw [h2.heap, objOf, h1.slot]; exact h.rdy op x (h2.pc ▸ hx)
  · rw [h2.calls, h1.cursor, h2.content]; exact h.res
  · simp only [Called, h2.calls, h1.cursor]; exact h.cur
  · simp only [Called, h2.calls, h1.gating]; exact hb
  · simp only [Called, h2.calls, h1.gating]; exact hd

/-- A processor goes on with the batch it has, or with none. -/
theorem GInv.procKeep {shared : Bool} {k : Nat} {s s' : St T} (h : GInv shared k s) (h1 : ProcStep s.ring s'.ring) (h2 : SamePub s s')
    (h3 : SameSub s s') {c : Nat} {pc : SRing.CPc} (h5 : s'.ring.cp = upd s.ring.cp c pc)
    (hk : ∀ nx av, (pc = .batch nx av ∨ pc = .handle nx av) → ∃ nx', s.ring.cp c = .batch nx' av ∨ s.ring.cp c = .handle nx' av) :
    GInv shared k s' := by
  refine h.proc h1 h2 ?_ (by rw [h3.dl]; exact h.dl)
  intro d hd nx av hx
  rw [h5] at hx
  simp only [upd_apply] at hx
  split at hx
  · next e =>
    subst e
    obtain ⟨nx', h'⟩ := hk nx av hx
    exact h.batch d hd nx' av h'
  · exact h.batch d hd nx av hx

theorem GInv.step {shared : Bool} {k : Nat} {s s' : St T} {a : Act T} (h : GInv shared k s) (hd : DInv shared k s)
    (hi : SRing.Inv k s.ring) (hok : OkAct s a) (e : Eff shared k s s' a) : GInv shared k s' := by
  cases e with
  | callGot op h1 h2 h3 h4 h5 => exact h.same h2 (by rw [h5]; intro _ _ h; cases h) (by rw [h5]) (by rw [h5]) (by rw [h5]) (by rw [h5])
  | callScan op h1 h2 h3 h4 h5 => exact h.same h2 (by rw [h5]; intro _ _ h; cases h) (by rw [h5]) (by rw [h5]) (by rw [h5]) (by rw [h5])
  | scanGot op h1 h2 h3 h4 h5 => exact h.same h2 (by rw [h5]; intro _ _ h; cases h) (by rw [h5]) (by rw [h5]) (by rw [h5]) (by rw [h5])
  | scanMore op h1 h2 h3 h4 h5 => exact h.same h2 (by rw [h5]; intro _ _ h; cases h) (by rw [h5]) (by rw [h5]) (by rw [h5]) (by rw [h5])
  | scanRefused op h1 h2 h3 h4 h6 h5 => exact h.same h2 (by rw [h5]; intro _ _ h; cases h) (by rw [h5]) (by rw [h5]) (by rw [h5]) (by rw [h5])
  | writeFresh v x h1 h2 h3 =>
    subst h3
    refine ⟨?_, h.res, h.cur, h.len, h.sorted, h.batch, h.dl⟩
    intro op y hy
    simp only [Pc.ready.injEq] at hy
    obtain ⟨rfl, rfl⟩ := hy
    simp [objOf, obj, Op.Gives]
  | writeIn f x h1 h3 =>
    subst h3
    refine ⟨?_, h.res, h.cur, h.len, h.sorted, h.batch, h.dl⟩
    intro op y hy
    simp only [Pc.ready.injEq] at hy
    obtain ⟨rfl, rfl⟩ := hy
    refine ⟨s.heap (objOf shared k s x), ?_⟩
    simp [objOf]
  | throwFresh v x g h1 h3 => subst h3; exact ⟨fun _ _ h => by simp at h, h.res, h.cur, h.len, h.sorted, h.batch, h.dl⟩
  | throwIn f x g h1 h3 => subst h3; exact ⟨fun _ _ h => by simp at h, h.res, h.cur, h.len, h.sorted, h.batch, h.dl⟩
  | publish op x h1 h2 h3 =>
    subst h3
    have mono : ∀ y, Called s y → ∃ op', (y, op') ∈ (x, op) :: s.calls := fun y ⟨op', h⟩ => ⟨op', List.mem_cons_of_mem _ h⟩
    refine ⟨fun _ _ h => by simp at h, ?_, .inr ⟨op, List.mem_cons_self ..⟩, by simp [h.len], ?_, ?_, ?_⟩
    · intro y op' hy
      simp only at hy ⊢
      rcases List.mem_cons.mp hy with hy | hy
      · cases hy
        rw [if_pos ⟨h2.1, Int.le_refl _⟩]
        exact ⟨Int.le_refl _, _, rfl, h.rdy op x h1⟩
      · obtain ⟨q1, t, q2, q3⟩ := h.res y op' hy
        rw [if_neg (by omega)]
        exact ⟨by omega, t, q2, q3⟩
    · simp only [List.map_cons, List.pairwise_cons]
      refine ⟨?_, h.sorted⟩
      intro y hy
      obtain ⟨⟨z, op'⟩, hz, rfl⟩ := List.mem_map.mp hy
      have := (h.res z op' hz).1
      simp only; omega
    · intro c hc nx av hb; exact mono _ (h.batch c hc nx av hb)
    · intro c hc e he; exact mono _ (h.dl c hc e he)
  | subscribe c hs' =>
    subst hs'
    have key : ∀ d, d ∈ s.ring.gating ++ [c] → d ≠ c → d ∈ s.ring.gating := by
      intro d hd hne
      rcases List.mem_append.mp hd with hd | hd
      · exact hd
      · simp at hd; exact absurd hd hne
    refine ⟨h.rdy, h.res, h.cur, h.len, h.sorted, ?_, ?_⟩
    · intro d hd nx av hb
      by_cases hdc : d = c
      · subst hdc
        have : s.ring.cp d = .idle := hok.2
        simp only [this] at hb
        rcases hb with hb | hb <;> cases hb
      · exact h.batch d (key d hd hdc) nx av hb
    · intro d hd e he
      simp only [upd_apply] at he
      split at he
      · simp at he
      · next hdc => exact h.dl d (key d hd hdc) e he
  | run c h1 h2 h3 h4 h5 h6 h7 => exact h.procKeep h1 h2 h3 h5 (fun nx av hx => by rcases hx with hx | hx <;> cases hx)
  | look c nx h1 h2 h3 h4 h5 h6 h7 =>
    rcases h5 with h5 | ⟨hle, h5⟩
    · exact h.proc h1 h2 (by rw [h5]; exact h.batch) (by rw [h3.dl]; exact h.dl)
    · refine h.proc h1 h2 ?_ (by rw [h3.dl]; exact h.dl)
      intro d hd nx' av hx
      rw [h5] at hx
      simp only [upd_apply] at hx
      split at hx
      · next e =>
        subst e
        have hc := hi.cons d hd
        have := hi.seq_ge d hd
        rw [h4] at hc
        simp only [SRing.CInv] at hc
        rcases hx with hx | hx <;> cases hx
        rcases h.cur with h0 | h0
        · omega
        · exact h0
      · exact h.batch d hd nx' av hx
  | event c nx av h1 h2 h4 hle h3 h5 h6 h7 =>
    refine h.proc h1 h2 ?_ ?_
    · intro d hd nx' av' hx
      rw [h5] at hx
      simp only [upd_apply] at hx
      split at hx
      · next e =>
        subst e
        rcases hx with hx | hx <;> cases hx
        exact h.batch d hd _ _ (.inl h4)
      · exact h.batch d hd nx' av' hx
    · intro d hd e he
      split at h3
      · next heq =>
        rw [h3.1] at he
        simp only [upd_apply] at he
        split at he
        · next e =>
          subst e
          rcases List.mem_cons.mp he with rfl | he
          · simp only; rw [heq]; exact h.batch d hd _ _ (.inl h4)
          · exact h.dl d hd e he
        · exact h.dl d hd e he
      · rw [h3.1] at he; exact h.dl d hd e he
  | batchEnd c nx av h1 h2 h3 h4 hgt h5 h6 h7 => exact h.procKeep h1 h2 h3 h5 (fun nx av hx => by rcases hx with hx | hx <;> cases hx)
  | finish c nx av h1 h2 h3 h4 h5 h6 h7 =>
    exact h.procKeep h1 h2 h3 h5 (fun nx av hx => by rcases hx with hx | hx <;> cases hx; exact ⟨_, .inr h4⟩)
  | throw c nx h1 h2 h3 h4 h5 h6 h7 => exact h.procKeep h1 h2 h3 h5 (fun nx av hx => by rcases hx with hx | hx <;> cases hx)
  | leave c nx h1 h2 h3 h4 h5 h6 h7 => exact h.procKeep h1 h2 h3 h5 (fun nx av hx => by rcases hx with hx | hx <;> cases hx)

theorem Reach.gInv {shared : Bool} {k : Nat} (hk : k ≤ 30) {P : Act T → Prop} {v : T} {s : St T} (h : Reach shared k P v s) :
    GInv shared k s := by
  induction h with
  | init =>
    exact ⟨fun _ _ h => by simp [St.init] at h, fun _ _ h => by simp [St.init] at h, .inl rfl, rfl, by simp [St.init],
      fun c hc => by simp [St.init, SRing.St.init] at hc, fun c hc => by simp [St.init, SRing.St.init] at hc⟩
  | step hr _ hok hs ih => exact ih.step (hr.dInv hk) (hr.ring.inv hk) hok (step_eff (hr.pcInv hk) hs)

/-- Executions from a state. -/
inductive Path (shared : Bool) (k : Nat) (P : Act T → Prop) : St T → St T → Prop where
  | nil {s} : Path shared k P s s
  | snoc {s s' s'' a} : Path shared k P s s' → P a → OkAct s' a → step shared k s' a = some s'' → Path shared k P s s''

/-- No action of subscriber `c`, and `c` is not made again. -/
def Without (c : Nat) : Act T → Prop
  | .subscribe d => d ≠ c
  | .run d => d ≠ c
  | _ => True

theorem gone_step {shared : Bool} {k : Nat} {s s' : St T} {c : Nat} {a : Act T} (hP : Without c a) (e : Eff shared k s s' a)
    (h1 : c ∈ s.ring.gating) (h2 : s.ring.cp c = .idle) :
    c ∈ s'.ring.gating ∧ s'.ring.cp c = .idle ∧ s'.ring.seq c = s.ring.seq c := by
  cases e with
  | callGot op q1 q2 q3 q4 q5 => exact ⟨q2.gating ▸ h1, by rw [q2.cp]; exact h2, by rw [q2.seq]⟩
  | callScan op q1 q2 q3 q4 q5 => exact ⟨q2.gating ▸ h1, by rw [q2.cp]; exact h2, by rw [q2.seq]⟩
  | scanGot op q1 q2 q3 q4 q5 => exact ⟨q2.gating ▸ h1, by rw [q2.cp]; exact h2, by rw [q2.seq]⟩
  | scanMore op q1 q2 q3 q4 q5 => exact ⟨q2.gating ▸ h1, by rw [q2.cp]; exact h2, by rw [q2.seq]⟩
  | scanRefused op q1 q2 q3 q4 q6 q5 => exact ⟨q2.gating ▸ h1, by rw [q2.cp]; exact h2, by rw [q2.seq]⟩
  | writeFresh v x q1 q2 q3 => subst q3; exact ⟨h1, h2, rfl⟩
  | writeIn f x q1 q3 => subst q3; exact ⟨h1, h2, rfl⟩
  | throwFresh v x g q1 q3 => subst q3; exact ⟨h1, h2, rfl⟩
  | throwIn f x g q1 q3 => subst q3; exact ⟨h1, h2, rfl⟩
  | publish op x q1 q2 q3 => subst q3; exact ⟨h1, h2, rfl⟩
  | subscribe d hs' =>
    subst hs'
    have hne : c ≠ d := fun e => hP e.symm
    exact ⟨List.mem_append.mpr (.inl h1), h2, upd_other _ _ hne⟩
  | run d q1 q2 q3 q4 q5 q6 q7 =>
    have hne : c ≠ d := fun e => hP e.symm
    exact ⟨q1.gating ▸ h1, by rw [q5, upd_other _ _ hne]; exact h2, by rw [q6]⟩
  | look d nx q1 q2 q3 q4 q5 q6 q7 =>
    have hne : c ≠ d := fun e => by subst e; rw [h2] at q4; cases q4
    refine ⟨q1.gating ▸ h1, ?_, by rw [q6]⟩
    rcases q5 with q5 | ⟨_, q5⟩
    · rw [q5]; exact h2
    · rw [q5, upd_other _ _ hne]; exact h2
  | event d nx av q1 q2 q4 hle q3 q5 q6 q7 =>
    have hne : c ≠ d := fun e => by subst e; rw [h2] at q4; cases q4
    exact ⟨q1.gating ▸ h1, by rw [q5, upd_other _ _ hne]; exact h2, by rw [q6]⟩
  | batchEnd d nx av q1 q2 q3 q4 hgt q5 q6 q7 =>
    have hne : c ≠ d := fun e => by subst e; rw [h2] at q4; cases q4
    exact ⟨q1.gating ▸ h1, by rw [q5, upd_other _ _ hne]; exact h2, by rw [q6, upd_other _ _ hne]⟩
  | finish d nx av q1 q2 q3 q4 q5 q6 q7 =>
    have hne : c ≠ d := fun e => by subst e; rw [h2] at q4; cases q4
    exact ⟨q1.gating ▸ h1, by rw [q5, upd_other _ _ hne]; exact h2, by rw [q6]⟩
  | throw d nx q1 q2 q3 q4 q5 q6 q7 =>
    have hne : c ≠ d := fun e => by subst e; rw [h2] at q4; cases q4
    exact ⟨q1.gating ▸ h1, by rw [q5, upd_other _ _ hne]; exact h2, by rw [q6, upd_other _ _ hne]⟩
  | leave d nx q1 q2 q3 q4 q5 q6 q7 =>
    have hne : c ≠ d := fun e => by subst e; rw [h2] at q4; cases q4
    exact ⟨q1.gating ▸ h1, by rw [q5, upd_other _ _ hne]; exact h2, by rw [q6]⟩

theorem Path.gone {shared : Bool} {k : Nat} (hk : k ≤ 30) {v : T} {s s' : St T} {c : Nat}
    (h : Reach shared k (fun _ => True) v s) (hp : Path shared k (Without c) s s') (h1 : c ∈ s.ring.gating) (h2 : s.ring.cp c = .idle) :
    Reach shared k (fun _ => True) v s' ∧ c ∈ s'.ring.gating ∧ s'.ring.cp c = .idle ∧ s'.ring.seq c = s.ring.seq c := by
  induction hp with
  | nil => exact ⟨h, h1, h2, rfl⟩
  | snoc hp hP hok hs ih =>
    obtain ⟨r1, r2, r3, r4⟩ := ih
    obtain ⟨g1, g2, g3⟩ := gone_step hP (step_eff (r1.pcInv hk) hs) r2 r3
    exact ⟨r1.step trivial hok hs, g1, g2, g3.trans r4⟩

/-! ### the ring filled by failed calls -/

/-- As many failed calls since the last successful one as the ring has slots. -/
structure Stuck (k : Nat) (s : St T) (c : Nat) : Prop where
  mem : c ∈ s.ring.gating
  full : s.ring.nextVal = s.ring.cursor + 2 ^ k
  pc : s.pc = .idle ∨ ∃ op, s.pc = .claiming op

theorem Stuck.step {shared : Bool} {k : Nat} (hk : k ≤ 30) {v : T} {s s' : St T} {a : Act T} {c : Nat}
    (hr : Reach shared k (fun _ => True) v s) (h : Stuck k s c) (hok : OkAct s a) (hs : step shared k s a = some s') :
    Stuck k s' c ∧ s'.ring.cursor = s.ring.cursor ∧ s'.done = s.done := by
  have hr' : Reach shared k (fun _ => True) v s' := hr.step trivial hok hs
  have hi' := hr'.ring.inv hk
  have hf := h.full
  have hm := h.mem
  have nogot : SameOut s.ring s'.ring → s'.ring.nextVal = s.ring.nextVal + 1 → False := by
    intro h2 h4
    have hg : c ∈ s'.ring.gating := by rw [h2.gating]; exact hm
    have := hi'.over c hg
    have := hi'.seq_le c hg
    have := h2.cursor
    omega
  have notpc : ∀ op x, s.pc = .writing op x → False := by
    intro op x hx; rcases h.pc with hp | ⟨op', hp⟩ <;> rw [hp] at hx <;> cases hx
  have notpc' : ∀ op x, s.pc = .ready op x → False := by
    intro op x hx; rcases h.pc with hp | ⟨op', hp⟩ <;> rw [hp] at hx <;> cases hx
  have proc : ProcStep s.ring s'.ring → SamePub s s' → Stuck k s' c ∧ s'.ring.cursor = s.ring.cursor ∧ s'.done = s.done := by
    intro h1 h2
    exact ⟨⟨h1.gating ▸ hm, by rw [h1.nextVal, h1.cursor]; exact hf, by rw [h2.pc]; exact h.pc⟩, h1.cursor, h2.done⟩
  have e := step_eff (hr.pcInv hk) hs
  cases e with
  | callGot op h1 h2 h3 h4 h5 => exact (nogot h2 h4).elim
  | callScan op h1 h2 h3 h4 h5 =>
    exact ⟨⟨h2.gating ▸ hm, by rw [h4, h2.cursor]; exact hf, .inr ⟨op, by rw [h5]⟩⟩, h2.cursor, by rw [h5]⟩
  | scanGot op h1 h2 h3 h4 h5 => exact (nogot h2 h4).elim
  | scanMore op h1 h2 h3 h4 h5 =>
    exact ⟨⟨h2.gating ▸ hm, by rw [h4, h2.cursor]; exact hf, .inr ⟨op, by rw [h5]⟩⟩, h2.cursor, by rw [h5]⟩
  | scanRefused op h1 h2 h3 h4 h6 h5 =>
    exact ⟨⟨h2.gating ▸ hm, by rw [h4, h2.cursor]; exact hf, .inl (by rw [h5])⟩, h2.cursor, by rw [h5]⟩
  | writeFresh v x h1 h2 h3 => exact (notpc _ _ h1).elim
  | writeIn f x h1 h3 => exact (notpc _ _ h1).elim
  | throwFresh v x g h1 h3 => exact (notpc _ _ h1).elim
  | throwIn f x g h1 h3 => exact (notpc _ _ h1).elim
  | publish op x h1 h2 h3 => exact (notpc' _ _ h1).elim
  | subscribe d hs' =>
    subst hs'
    exact ⟨⟨List.mem_append.mpr (.inl hm), hf, h.pc⟩, rfl, rfl⟩
  | run d h1 h2 h3 h4 h5 h6 h7 => exact proc h1 h2
  | look d nx h1 h2 h3 h4 h5 h6 h7 => exact proc h1 h2
  | event d nx av h1 h2 h4 hle h3 h5 h6 h7 => exact proc h1 h2
  | batchEnd d nx av h1 h2 h3 h4 hgt h5 h6 h7 => exact proc h1 h2
  | finish d nx av h1 h2 h3 h4 h5 h6 h7 => exact proc h1 h2
  | throw d nx h1 h2 h3 h4 h5 h6 h7 => exact proc h1 h2
  | leave d nx h1 h2 h3 h4 h5 h6 h7 => exact proc h1 h2

end Verif.Mux
