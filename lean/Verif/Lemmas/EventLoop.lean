import Verif.Model.EventLoop
import Verif.Props.MultiRing

namespace Verif.EvLoop
open Verif Verif.Disr

variable {D : Type}

/-- The loop is started only while no publisher holds an unpublished sequence; fewer than 2^31 events are published (C24). -/
def OkAct (s : St D) : Act D → Prop
  | .start => ∀ x, s.ring.owner x = none
  | .claim p => ∀ cur, s.ring.pp p = .tCache 1 cur → cur + 1 < 2 ^ 31
  | _ => True

/-- States reached with actions that satisfy `P`. -/
inductive Reach (k : Nat) (P : St D → Act D → Prop) : St D → Prop where
  | init : Reach k P St.init
  | step {s s' a} : Reach k P s → P s a → OkAct s a → step k s a = some s' → Reach k P s'

/-- In `try_next(1)`. -/
def Trying : MRing.PPc → Prop
  | .tLoad n => n = 1
  | .tCache n _ => n = 1
  | .tScan n _ _ _ => n = 1
  | .tSet n _ _ => n = 1
  | .tCas n _ => n = 1
  | _ => False

/-- The cursor value in use is below the limit of C24. -/
def Small : MRing.PPc → Prop
  | .tScan _ cur _ _ => cur + 1 < 2 ^ 31
  | .tSet _ cur _ => cur + 1 < 2 ^ 31
  | .tCas _ cur => cur + 1 < 2 ^ 31
  | _ => True

inductive TryEff (r r' : MRing.St (Val D)) (p : Nat) : Prop where
  | got (h1 : r.pp p = .tCas 1 r.cursor) (h : r' = MRing.claim r p r.cursor 1)
  | refused (m : Int) (h : r' = { r with cache := m, pp := upd r.pp p .idle })
  | more (m : Int) (pc : MRing.PPc) (h1 : Trying pc)
      (h2 : (∀ cur, r.pp p = .tCache 1 cur → cur + 1 < 2 ^ 31) → Small (r.pp p) → Small pc)
      (h : r' = { r with cache := m, pp := upd r.pp p pc })

theorem try_eff {B : Int} {r r' : MRing.St (Val D)} {p : Nat} (ht : Trying (r.pp p)) (h : MRing.pstep B r p = some r') : TryEff r r' p := by
  unfold MRing.pstep at h
  split at h
  case h_1 e => rw [e] at ht; exact ht.elim
  case h_2 e => rw [e] at ht; exact ht.elim
  case h_3 e => rw [e] at ht; exact ht.elim
  case h_4 e => rw [e] at ht; exact ht.elim
  case h_5 e => rw [e] at ht; exact ht.elim
  case h_6 e => rw [e] at ht; exact ht.elim
  case h_7 e => rw [e] at ht; exact ht.elim
  case h_8 n e => rw [e] at ht; cases h; cases ht; exact .more r.cache _ (by exact rfl) (by exact fun _ _ => trivial) rfl
  case h_9 n cur e =>
    rw [e] at ht
    cases ht
    split at h <;> cases h
    · exact .more r.cache _ (by exact rfl) (by exact fun h _ => h cur e) rfl
    · exact .more r.cache _ (by exact rfl) (by exact fun h _ => h cur e) rfl
  case h_10 n cur m e => rw [e] at ht; cases h; cases ht; exact .more r.cache _ (by exact rfl) (by exact fun _ h => by rw [e] at h; exact h) rfl
  case h_11 n cur c rest m e => rw [e] at ht; cases h; cases ht; exact .more r.cache _ (by exact rfl) (by exact fun _ h => by rw [e] at h; exact h) rfl
  case h_12 n cur m e =>
    rw [e] at ht
    cases ht
    split at h <;> cases h
    · exact .refused m rfl
    · exact .more m _ (by exact rfl) (by exact fun _ h => by rw [e] at h; exact h) rfl
  case h_13 n cur e =>
    rw [e] at ht
    cases ht
    split at h <;> cases h
    · next hc => rw [← hc] at e ⊢; exact .got e rfl
    · exact .more r.cache _ (by exact rfl) (by exact fun _ _ => trivial) rfl

/-- Publishers and the ring agree. -/
def PcOk : Pc D → MRing.PPc → Prop
  | .claiming _ _, pp => Trying pp
  | _, pp => pp = .idle

def PcInv (s : St D) : Prop := ∀ p, PcOk (s.pc p) (s.ring.pp p)

/-- One step by cases. -/
inductive Eff (k : Nat) (s s' : St D) : Act D → Prop where
  | call (p t d) (h1 : s.pc p = .idle)
      (h : s' = { s with ring := { s.ring with pp := upd s.ring.pp p (.tLoad 1) }, pc := upd s.pc p (.claiming t d) }) :
      Eff k s s' (.call p t d)
  | got (p t d) (h1 : s.pc p = .claiming t d) (h2 : s.ring.pp p = .tCas 1 s.ring.cursor)
      (h : s' = { s with
        ring := MRing.claim s.ring p s.ring.cursor 1
        pc := upd s.pc p (.claimed t d (s.ring.cursor + 1))
        accepted := (p, t, d, s.ring.cursor + 1) :: s.accepted }) : Eff k s s' (.claim p)
  | refused (p t d m) (h1 : s.pc p = .claiming t d)
      (h : s' = { s with
        ring := { s.ring with cache := m, pp := upd s.ring.pp p .idle }
        pc := upd s.pc p .idle
        discarded := fun u => if u = t then s.discarded u + 1 else s.discarded u }) : Eff k s s' (.claim p)
  | more (p t d m pc') (h1 : s.pc p = .claiming t d) (h2 : Trying pc')
      (h3 : (∀ cur, s.ring.pp p = .tCache 1 cur → cur + 1 < 2 ^ 31) → Small (s.ring.pp p) → Small pc')
      (h : s' = { s with ring := { s.ring with cache := m, pp := upd s.ring.pp p pc' } }) : Eff k s s' (.claim p)
  | weak (p t d cur) (h1 : s.pc p = .claiming t d) (h2 : s.ring.pp p = .tCas 1 cur)
      (h : s' = { s with ring := { s.ring with pp := upd s.ring.pp p (.tLoad 1) } }) : Eff k s s' (.weak p)
  | write (p t d x) (h1 : s.pc p = .claimed t d x) (h2 : s.ring.owner x = some p)
      (h : s' = { s with
        ring := { s.ring with slot := upd s.ring.slot (slotIdx k x) (some (t, d)) }
        cleared := upd s.cleared (slotIdx k x) false
        pc := upd s.pc p (.written t d x) }) : Eff k s s' (.write p)
  | publish (p t d x) (h1 : s.pc p = .written t d x) (h2 : s.ring.owner x = some p)
      (h : s' = { s with
        ring := { s.ring with
          avail := upd s.ring.avail (availIdx k x) (availFlag k x)
          owner := upd s.ring.owner x none
          pub := upd s.ring.pub x (some (s.ring.slot (slotIdx k x))) }
        pc := upd s.pc p .idle }) : Eff k s s' (.publish p)
  | start (h1 : s.started = false)
      (h : s' = { s with
        ring := { s.ring with
          seq := upd s.ring.seq 0 s.ring.cursor
          gating := s.ring.gating ++ [0]
          dlog := upd s.ring.dlog 0 []
          base := upd s.ring.base 0 s.ring.cursor }
        started := true, before := s.emitted ++ s.before, emitted := [] }) : Eff k s s' .start
  | run (h1 : s.started = true) (h2 : s.ring.cp 0 = .idle)
      (h : s' = { s with ring := { s.ring with cp := upd s.ring.cp 0 (.wait (s.ring.seq 0 + 1)) } }) : Eff k s s' .run
  | lookNone (nx) (h2 : s.ring.cp 0 = .wait nx) (h3 : s.ring.cursor < nx) (h : s' = s) : Eff k s s' .look
  | look (nx) (h2 : s.ring.cp 0 = .wait nx) (h3 : nx ≤ s.ring.cursor)
      (h : s' = { s with ring := { s.ring with cp := upd s.ring.cp 0 (.scan nx s.ring.cursor nx) } }) : Eff k s s' .look
  | scan (nx hi i pc') (h2 : s.ring.cp 0 = .scan nx hi i)
      (h3 : pc' = .scan nx hi (i + 1) ∨ (∃ av, pc' = .batch nx av))
      (h : s' = { s with ring := { s.ring with cp := upd s.ring.cp 0 pc' } }) : Eff k s s' .scan
  | event (nx av) (h2 : s.ring.cp 0 = .batch nx av) (h3 : nx ≤ av)
      (h : s' = { s with
        ring := { s.ring with cp := upd s.ring.cp 0 (.handle nx av), dlog := upd s.ring.dlog 0 ((nx, decide (nx = av)) :: s.ring.dlog 0) }
        emitted := readSlot k s nx :: s.emitted }) : Eff k s s' .advance
  | batchEnd (nx av) (h2 : s.ring.cp 0 = .batch nx av) (h3 : av < nx)
      (h : s' = { s with ring := { s.ring with seq := upd s.ring.seq 0 av, cp := upd s.ring.cp 0 (.wait nx) } }) : Eff k s s' .advance
  | finish (nx av) (h2 : s.ring.cp 0 = .handle nx av)
      (h : s' = { s with
        ring := { s.ring with cp := upd s.ring.cp 0 (.batch (nx + 1) av) }
        cleared := upd s.cleared (slotIdx k nx) true }) : Eff k s s' .finish
  | throw (nx av) (h2 : s.ring.cp 0 = .handle nx av)
      (h : s' = { s with ring := { s.ring with seq := upd s.ring.seq 0 nx, cp := upd s.ring.cp 0 (.wait (nx + 1)) } }) : Eff k s s' .throw
  | stop (nx) (h1 : s.started = true) (h2 : s.ring.cp 0 = .wait nx)
      (h : s' = { s with ring := { s.ring with cp := upd s.ring.cp 0 .idle }, started := false }) : Eff k s s' .stop

theorem step_eff {k : Nat} {s s' : St D} {a : Act D} (hp : PcInv s) (hs : step k s a = some s') : Eff k s s' a := by
  cases a with
  | call p t d =>
    simp only [step] at hs
    split at hs
    · next h1 =>
      simp only [MRing.step] at hs
      split at hs
      · simp only [Option.map_some, Option.some.injEq] at hs; exact .call p t d h1 hs.symm
      · simp at hs
    · cases hs
  | claim p =>
    simp only [step] at hs
    split at hs
    · next t d h1 =>
      obtain ⟨r, h2, h3⟩ := Option.map_eq_some_iff.mp hs
      have ht := hp p
      rw [h1] at ht
      simp only [MRing.step] at h2
      cases try_eff ht h2 with
      | got hq h =>
        refine .got p t d h1 hq ?_
        rw [← h3, h]
        simp [afterClaim, MRing.claim]
      | refused m h =>
        refine .refused p t d m h1 ?_
        rw [← h3, h]
        simp [afterClaim]
      | more m pc hpc hsm h =>
        refine .more p t d m pc h1 hpc hsm ?_
        rw [← h3, h]
        simp only [afterClaim, upd_same]
        rw [if_neg]
        intro e; rw [e] at hpc; exact hpc
    · cases hs
  | weak p =>
    simp only [step, lift] at hs
    split at hs
    · next t d h1 =>
      obtain ⟨r, h2, h3⟩ := Option.map_eq_some_iff.mp hs
      have ht := hp p
      rw [h1] at ht
      simp only [MRing.step, MRing.weak] at h2
      split at h2
      · next e => rw [e] at ht; exact ht.elim
      · next n cur e => rw [e] at ht; cases ht; cases h2; exact .weak p t d cur h1 e h3.symm
      · cases h2
    · cases hs
  | write p =>
    simp only [step] at hs
    split at hs
    · next t d x h1 =>
      simp only [MRing.step] at hs
      split at hs
      · next h2 => simp only [Option.map_some, Option.some.injEq] at hs; exact .write p t d x h1 h2 hs.symm
      · simp at hs
    · cases hs
  | publish p =>
    simp only [step] at hs
    split at hs
    · next t d x h1 =>
      simp only [MRing.step] at hs
      split at hs
      · next h2 => simp only [Option.map_some, Option.some.injEq] at hs; exact .publish p t d x h1 h2 hs.symm
      · simp at hs
    · cases hs
  | start =>
    simp only [step] at hs
    split at hs
    · cases hs
    · next h1 => simp only [MRing.step, Option.map_some, Option.some.injEq] at hs; exact .start (by simpa using h1) hs.symm
  | run =>
    simp only [step, lift] at hs
    split at hs
    · next h1 =>
      simp only [MRing.step] at hs
      split at hs
      · next h2 => simp only [Option.map_some, Option.some.injEq] at hs; exact .run h1 h2 hs.symm
      · simp at hs
    · cases hs
  | look =>
    simp only [step, lift, MRing.step] at hs
    split at hs
    · next nx h2 =>
      split at hs
      · next h3 => simp only [Option.map_some, Option.some.injEq] at hs; exact .lookNone nx h2 h3 hs.symm
      · next h3 => simp only [Option.map_some, Option.some.injEq] at hs; exact .look nx h2 (by omega) hs.symm
    · simp at hs
  | scan =>
    simp only [step, lift, MRing.step] at hs
    split at hs
    · next nx hi i h2 =>
      (repeat' split at hs) <;> simp only [Option.map_some, Option.some.injEq] at hs
      · exact .scan nx hi i _ h2 (.inl rfl) hs.symm
      · exact .scan nx hi i _ h2 (.inr ⟨_, rfl⟩) hs.symm
      · exact .scan nx hi i _ h2 (.inr ⟨_, rfl⟩) hs.symm
    · simp at hs
  | advance =>
    simp only [step, lift] at hs
    split at hs
    · next nx av h2 =>
      split at hs
      · next h3 =>
        simp only [MRing.step, h2, h3, if_true, Option.map_some, Option.some.injEq] at hs
        exact .event nx av h2 h3 hs.symm
      · next h3 =>
        simp only [MRing.step, h2, h3, if_false, Option.map_some, Option.some.injEq] at hs
        exact .batchEnd nx av h2 (by omega) hs.symm
    · cases hs
  | finish =>
    simp only [step, lift] at hs
    split at hs
    · next nx av h2 =>
      simp only [MRing.step, h2, Option.map_some, Option.some.injEq] at hs
      exact .finish nx av h2 hs.symm
    · cases hs
  | throw =>
    simp only [step, lift, MRing.step] at hs
    split at hs
    · next nx av h2 => simp only [Option.map_some, Option.some.injEq] at hs; exact .throw nx av h2 hs.symm
    · simp at hs
  | stop =>
    simp only [step, lift] at hs
    split at hs
    · next h1 =>
      simp only [MRing.step] at hs
      split at hs
      · next nx h2 => simp only [Option.map_some, Option.some.injEq] at hs; exact .stop nx h1 h2 hs.symm
      · simp at hs
    · cases hs

/-- The ring makes at most one step. -/
theorem step_ring {k : Nat} {s s' : St D} {a : Act D} (hs : step k s a = some s') (hst : s.started = false → s.ring.cp 0 = .idle)
    (hp : PcInv s) (hok : OkAct s a) : s'.ring = s.ring ∨ ∃ b, MRing.step k s.ring b = some s'.ring ∧ MRing.OkAct s.ring b := by
  cases a with
  | call p t d =>
    simp only [step] at hs
    split at hs
    · obtain ⟨r, h1, h2⟩ := Option.map_eq_some_iff.mp hs
      subst h2; exact .inr ⟨_, h1, trivial⟩
    · cases hs
  | claim p =>
    simp only [step] at hs
    split at hs
    · next t d hpc =>
      obtain ⟨r, h1, h2⟩ := Option.map_eq_some_iff.mp hs
      refine .inr ⟨.pstep p, ?_, ?_⟩
      · rw [h1, ← h2]; simp only [afterClaim]; (repeat' split) <;> rfl
      · intro n cur hpp
        have ht := hp p
        rw [hpc] at ht
        simp only [hpp, Trying] at ht
        subst ht
        exact hok cur hpp
    · cases hs
  | weak p =>
    simp only [step, lift] at hs
    split at hs
    · obtain ⟨r, h1, h2⟩ := Option.map_eq_some_iff.mp hs
      subst h2; exact .inr ⟨_, h1, trivial⟩
    · cases hs
  | write p =>
    simp only [step] at hs
    split at hs
    · obtain ⟨r, h1, h2⟩ := Option.map_eq_some_iff.mp hs
      subst h2; exact .inr ⟨_, h1, trivial⟩
    · cases hs
  | publish p =>
    simp only [step] at hs
    split at hs
    · obtain ⟨r, h1, h2⟩ := Option.map_eq_some_iff.mp hs
      subst h2; exact .inr ⟨_, h1, trivial⟩
    · cases hs
  | start =>
    simp only [step] at hs
    split at hs
    · cases hs
    · next hn =>
      obtain ⟨r, h1, h2⟩ := Option.map_eq_some_iff.mp hs
      subst h2; exact .inr ⟨_, h1, hok, hst (by simpa using hn)⟩
  | run =>
    simp only [step, lift] at hs
    split at hs
    · obtain ⟨r, h1, h2⟩ := Option.map_eq_some_iff.mp hs
      subst h2; exact .inr ⟨_, h1, trivial⟩
    · cases hs
  | look =>
    simp only [step, lift] at hs
    obtain ⟨r, h1, h2⟩ := Option.map_eq_some_iff.mp hs
    subst h2; exact .inr ⟨_, h1, trivial⟩
  | scan =>
    simp only [step, lift] at hs
    obtain ⟨r, h1, h2⟩ := Option.map_eq_some_iff.mp hs
    subst h2; exact .inr ⟨_, h1, trivial⟩
  | advance =>
    simp only [step, lift] at hs
    split at hs
    · split at hs <;>
      · obtain ⟨r, h1, h2⟩ := Option.map_eq_some_iff.mp hs
        subst h2; exact .inr ⟨_, h1, trivial⟩
    · cases hs
  | finish =>
    simp only [step, lift] at hs
    split at hs
    · obtain ⟨r, h1, h2⟩ := Option.map_eq_some_iff.mp hs
      subst h2; exact .inr ⟨_, h1, trivial⟩
    · cases hs
  | throw =>
    simp only [step, lift] at hs
    obtain ⟨r, h1, h2⟩ := Option.map_eq_some_iff.mp hs
    subst h2; exact .inr ⟨_, h1, trivial⟩
  | stop =>
    simp only [step, lift] at hs
    split at hs
    · obtain ⟨r, h1, h2⟩ := Option.map_eq_some_iff.mp hs
      subst h2; exact .inr ⟨_, h1, trivial⟩
    · cases hs

theorem PcInv.upd {s s' : St D} (hp : PcInv s) {p : Nat} {pc : Pc D} {pp : MRing.PPc} (h1 : s'.pc = upd s.pc p pc)
    (h2 : s'.ring.pp = upd s.ring.pp p pp) (h3 : PcOk pc pp) : PcInv s' := by
  intro q
  rw [h1, h2]
  simp only [upd_apply]
  split
  · exact h3
  · exact hp q

theorem PcInv.step {k : Nat} {s s' : St D} {a : Act D} (hp : PcInv s) (e : Eff k s s' a) : PcInv s' := by
  have self : ∀ {p : Nat}, s.ring.pp = Verif.upd s.ring.pp p (s.ring.pp p) := by
    intro p; funext q; simp only [upd_apply]; split
    · next e => rw [e]
    · rfl
  have selfc : ∀ {p : Nat}, s.pc = Verif.upd s.pc p (s.pc p) := by
    intro p; funext q; simp only [upd_apply]; split
    · next e => rw [e]
    · rfl
  cases e with
  | call p t d h1 h => subst h; exact hp.upd rfl rfl rfl
  | got p t d h1 h2 h => subst h; exact hp.upd rfl rfl rfl
  | refused p t d m h1 h => subst h; exact hp.upd rfl rfl rfl
  | more p t d m pc' h1 h2 h3 h => subst h; exact hp.upd (p := p) selfc rfl (by rw [h1]; exact h2)
  | weak p t d cur h1 h2 h => subst h; exact hp.upd (p := p) selfc rfl (by rw [h1]; exact rfl)
  | write p t d x h1 h2 h =>
    subst h
    refine hp.upd (p := p) rfl self ?_
    have := hp p; rw [h1] at this; exact this
  | publish p t d x h1 h2 h =>
    subst h
    refine hp.upd (p := p) rfl self ?_
    have := hp p; rw [h1] at this; exact this
  | start h1 h => subst h; exact hp
  | run h1 h2 h => subst h; exact hp
  | lookNone nx h2 h3 h => subst h; exact hp
  | look nx h2 h3 h => subst h; exact hp
  | scan nx hi i pc' h2 h3 h => subst h; exact hp
  | event nx av h2 h3 h => subst h; exact hp
  | batchEnd nx av h2 h3 h => subst h; exact hp
  | finish nx av h2 h => subst h; exact hp
  | throw nx av h2 h => subst h; exact hp
  | stop nx h1 h2 h => subst h; exact hp

theorem Reach.pcInv {k : Nat} {P : St D → Act D → Prop} {s : St D} (h : Reach k P s) : PcInv s := by
  induction h with
  | init => intro p; rfl
  | step hr _ hok hs ih => exact ih.step (step_eff ih hs)

theorem stopped_step {k : Nat} {s s' : St D} {a : Act D} (hst : s.started = false → s.ring.cp 0 = .idle) (e : Eff k s s' a) :
    s'.started = false → s'.ring.cp 0 = .idle := by
  cases e with
  | call p t d h1 h => subst h; exact hst
  | got p t d h1 h2 h => subst h; exact hst
  | refused p t d m h1 h => subst h; exact hst
  | more p t d m pc' h1 h2 h3 h => subst h; exact hst
  | weak p t d cur h1 h2 h => subst h; exact hst
  | write p t d x h1 h2 h => subst h; exact hst
  | publish p t d x h1 h2 h => subst h; exact hst
  | start h1 h => subst h; intro h; cases h
  | run h1 h2 h => subst h; intro h; simp only at h; rw [h1] at h; cases h
  | lookNone nx h2 h3 h => subst h; exact hst
  | look nx h2 h3 h => subst h; intro h; rw [hst h] at h2; cases h2
  | scan nx hi i pc' h2 h3 h => subst h; intro h; rw [hst h] at h2; cases h2
  | event nx av h2 h3 h => subst h; intro h; rw [hst h] at h2; cases h2
  | batchEnd nx av h2 h3 h => subst h; intro h; rw [hst h] at h2; cases h2
  | finish nx av h2 h => subst h; intro h; rw [hst h] at h2; cases h2
  | throw nx av h2 h => subst h; intro h; rw [hst h] at h2; cases h2
  | stop nx h1 h2 h => subst h; intro _; simp

theorem Reach.stopped {k : Nat} {P : St D → Act D → Prop} {s : St D} (h : Reach k P s) : s.started = false → s.ring.cp 0 = .idle := by
  induction h with
  | init => intro _; rfl
  | step hr _ hok hs ih => exact stopped_step ih (step_eff hr.pcInv hs)

theorem Reach.ring {k : Nat} {P : St D → Act D → Prop} {s : St D} (h : Reach k P s) : MRing.Reach k none s.ring := by
  induction h with
  | init => exact .init
  | step hr _ hok hs ih =>
    rcases step_ring hs hr.stopped hr.pcInv hok with e | ⟨b, h1, h2⟩
    · rw [e]; exact ih
    · exact ih.step h2 h1

/-! ### the cursor stays below 2^31 -/

structure SmallInv (s : St D) : Prop where
  cur : s.ring.cursor < 2 ^ 31
  pp : ∀ p, Small (s.ring.pp p)

theorem SmallInv.congr {s s' : St D} (h : SmallInv s) (h1 : s'.ring.cursor = s.ring.cursor) (h2 : s'.ring.pp = s.ring.pp) : SmallInv s' :=
  ⟨by rw [h1]; exact h.cur, by rw [h2]; exact h.pp⟩

theorem small_upd {f : Nat → MRing.PPc} (h : ∀ p, Small (f p)) {p : Nat} {pc : MRing.PPc} (h1 : Small pc) : ∀ q, Small (upd f p pc q) := by
  intro q; simp only [upd_apply]; split
  · exact h1
  · exact h q

theorem SmallInv.step {k : Nat} {s s' : St D} {a : Act D} (hi : SmallInv s) (hok : OkAct s a) (e : Eff k s s' a) : SmallInv s' := by
  cases e with
  | call p t d h1 h => subst h; exact ⟨hi.cur, small_upd hi.pp trivial⟩
  | got p t d h1 h2 h =>
    subst h
    have := hi.pp p; rw [h2] at this
    exact ⟨this, small_upd hi.pp trivial⟩
  | refused p t d m h1 h => subst h; exact ⟨hi.cur, small_upd hi.pp trivial⟩
  | more p t d m pc' h1 h2 h3 h => subst h; exact ⟨hi.cur, small_upd hi.pp (h3 hok (hi.pp p))⟩
  | weak p t d cur h1 h2 h => subst h; exact ⟨hi.cur, small_upd hi.pp trivial⟩
  | write p t d x h1 h2 h => subst h; exact hi.congr rfl rfl
  | publish p t d x h1 h2 h => subst h; exact hi.congr rfl rfl
  | start h1 h => subst h; exact hi.congr rfl rfl
  | run h1 h2 h => subst h; exact hi.congr rfl rfl
  | lookNone nx h2 h3 h => subst h; exact hi
  | look nx h2 h3 h => subst h; exact hi.congr rfl rfl
  | scan nx hi' i pc' h2 h3 h => subst h; exact hi.congr rfl rfl
  | event nx av h2 h3 h => subst h; exact hi.congr rfl rfl
  | batchEnd nx av h2 h3 h => subst h; exact hi.congr rfl rfl
  | finish nx av h2 h => subst h; exact hi.congr rfl rfl
  | throw nx av h2 h => subst h; exact hi.congr rfl rfl
  | stop nx h1 h2 h => subst h; exact hi.congr rfl rfl

theorem Reach.small {k : Nat} {P : St D → Act D → Prop} {s : St D} (h : Reach k P s) : SmallInv s := by
  induction h with
  | init => exact ⟨by simp [St.init, MRing.St.init], fun p => trivial⟩
  | step hr _ hok hs ih => exact ih.step hok (step_eff hr.pcInv hs)

theorem Reach.lim {k : Nat} {P : St D → Act D → Prop} {s : St D} (h : Reach k P s) : s.ring.cursor < (2 ^ 32 - 1) * 2 ^ k := by
  have h1 := h.small.cur
  have h2 := MRing.pow_pos' k
  have : (2 : Int) ^ 31 ≤ (2 ^ 32 - 1) * 2 ^ k := by nlinarith
  omega

theorem Reach.inv {k : Nat} (hk : k ≤ 30) {P : St D → Act D → Prop} {s : St D} (h : Reach k P s) : MRing.Inv k s.ring :=
  h.ring.inv hk h.lim

/-! ### accepted calls and emissions -/

/-- The accepted calls have the sequences `cursor`, `cursor-1`, …, `0`. -/
def Chain : List (Nat × String × D × Int) → Int → Prop
  | [], c => c = -1
  | a :: l, c => a.2.2.2 = c ∧ Chain l (c - 1)

theorem Chain.bound {l : List (Nat × String × D × Int)} {c : Int} (h : Chain l c) : -1 ≤ c ∧ (l.length : Int) = c + 1 ∧ ∀ a ∈ l, 0 ≤ a.2.2.2 ∧ a.2.2.2 ≤ c := by
  induction l generalizing c with
  | nil => simp only [Chain] at h; subst h; simp
  | cons a l ih =>
    obtain ⟨h1, h2⟩ := h
    obtain ⟨i1, i2, i3⟩ := ih h2
    refine ⟨by omega, by simp; omega, ?_⟩
    intro b hb
    rcases List.mem_cons.mp hb with rfl | hb
    · omega
    · have := i3 b hb; omega

theorem Chain.unique {l : List (Nat × String × D × Int)} {c : Int} (h : Chain l c) {a b : Nat × String × D × Int} (ha : a ∈ l) (hb : b ∈ l)
    (he : a.2.2.2 = b.2.2.2) : a = b := by
  induction l generalizing c with
  | nil => cases ha
  | cons d l ih =>
    obtain ⟨h1, h2⟩ := h
    have hb' := h2.bound.2.2
    rcases List.mem_cons.mp ha with ha | ha <;> rcases List.mem_cons.mp hb with hb | hb
    · rw [ha, hb]
    · rw [ha] at he; have := hb' b hb; omega
    · rw [hb] at he; have := hb' a ha; omega
    · exact ih h2 ha hb

theorem Chain.cover {l : List (Nat × String × D × Int)} {c : Int} (h : Chain l c) {x : Int} (h0 : 0 ≤ x) (hx : x ≤ c) : ∃ p t d, (p, t, d, x) ∈ l := by
  induction l generalizing c with
  | nil => simp only [Chain] at h; omega
  | cons a l ih =>
    obtain ⟨h1, h2⟩ := h
    by_cases hc : x = c
    · obtain ⟨p, t, d, y⟩ := a
      simp only at h1
      exact ⟨p, t, d, by rw [hc, ← h1]; exact List.mem_cons_self ..⟩
    · obtain ⟨p, t, d, hm⟩ := ih h2 (by omega)
      exact ⟨p, t, d, List.mem_cons_of_mem _ hm⟩

/-- The loop has dealt with the events up to here. -/
def mark (s : St D) : Int :=
  match s.ring.cp 0 with
  | .batch nx _ => nx - 1
  | .handle nx _ => nx - 1
  | _ => s.ring.seq 0

/-- Sequence `x` is held by thread `p`, which publishes `d` on `t`. -/
def Holds (s : St D) (p : Nat) (t : String) (d : D) (x : Int) : Prop := s.pc p = .claimed t d x ∨ s.pc p = .written t d x

structure LInv (k : Nat) (s : St D) : Prop where
  chain : Chain s.accepted s.ring.cursor
  own : ∀ x p, s.ring.owner x = some p → ∃ t d, Holds s p t d x
  pown : ∀ p t d x, Holds s p t d x → s.ring.owner x = some p ∧ (p, t, d, x) ∈ s.accepted
  wr : 0 ∈ s.ring.gating → ∀ p t d x, s.pc p = .written t d x → s.ring.slot (slotIdx k x) = some (t, d) ∧ s.cleared (slotIdx k x) = false
  acc : 0 ∈ s.ring.gating → ∀ p t d x, (p, t, d, x) ∈ s.accepted → s.ring.base 0 < x → ∀ w, s.ring.pub x = some w → w = some (t, d)
  fresh : 0 ∈ s.ring.gating → ∀ x, mark s < x → x ≤ s.ring.cursor → s.ring.owner x = none → s.cleared (slotIdx k x) = false
  bs : 0 ∈ s.ring.gating → s.ring.base 0 ≤ s.ring.seq 0
  emq : 0 ∈ s.ring.gating → s.emitted.map (·.seq) = (s.ring.dlog 0).map (·.1)
  em : 0 ∈ s.ring.gating → ∀ e ∈ s.emitted, ∃ p t d, (p, t, d, e.seq) ∈ s.accepted ∧ e = ⟨e.seq, t, some d⟩

theorem LInv.init (k : Nat) : LInv k (St.init (D := D)) := by
  constructor <;> simp [St.init, MRing.St.init, Chain, Holds]

/-- A change of the position of the loop that keeps the mark. -/
theorem LInv.loop {k : Nat} {s : St D} (h : LInv k s) (q : Int) (pc : MRing.CPc) (st : Bool)
    (hm : mark s ≤ mark { s with ring := { s.ring with seq := upd s.ring.seq 0 q, cp := upd s.ring.cp 0 pc } })
    (hq : 0 ∈ s.ring.gating → s.ring.seq 0 ≤ q) :
    LInv k { s with ring := { s.ring with seq := upd s.ring.seq 0 q, cp := upd s.ring.cp 0 pc }, started := st } := by
  refine ⟨h.chain, h.own, h.pown, h.wr, h.acc, ?_, ?_, h.emq, h.em⟩
  · intro hg x hx hx' ho
    refine h.fresh hg x ?_ hx' ho
    have : mark s < x := by
      refine lt_of_le_of_lt hm ?_
      exact hx
    exact this
  · intro hg; have := h.bs hg; have := hq hg; simp only [upd_same]; omega

theorem upd_id (f : Nat → Int) (a : Nat) : upd f a (f a) = f := by
  funext b; simp only [upd_apply]; split
  · next e => rw [e]
  · rfl

theorem LInv.loop' {k : Nat} {s : St D} (h : LInv k s) (pc : MRing.CPc) (st : Bool)
    (hm : mark s ≤ mark { s with ring := { s.ring with cp := upd s.ring.cp 0 pc } }) :
    LInv k { s with ring := { s.ring with cp := upd s.ring.cp 0 pc }, started := st } := by
  have := h.loop (s.ring.seq 0) pc st (by rw [upd_id]; exact hm) (fun _ => Int.le_refl _)
  rw [upd_id] at this
  exact this

/-- A step of a publisher inside `try_next`. -/
theorem LInv.pub {k : Nat} {s : St D} (h : LInv k s) {p : Nat} (pc : Pc D) (m : Int) (pp : Nat → MRing.PPc) (dsc : String → Nat)
    (h1 : ∀ t d x, ¬ Holds s p t d x) (h2 : ∀ t d x, pc ≠ .claimed t d x ∧ pc ≠ .written t d x) :
    LInv k { s with ring := { s.ring with cache := m, pp := pp }, pc := upd s.pc p pc, discarded := dsc } := by
  have key : ∀ q t d x, Holds { s with ring := { s.ring with cache := m, pp := pp }, pc := upd s.pc p pc, discarded := dsc } q t d x ↔
      Holds s q t d x := by
    intro q t d x
    simp only [Holds, upd_apply]
    split
    · next e =>
      subst e
      constructor
      · rintro (h | h)
        · exact absurd h (h2 t d x).1
        · exact absurd h (h2 t d x).2
      · intro h; exact absurd h (h1 t d x)
    · exact Iff.rfl
  refine ⟨h.chain, ?_, ?_, ?_, h.acc, h.fresh, h.bs, h.emq, h.em⟩
  · intro x q hq
    obtain ⟨t, d, hh⟩ := h.own x q hq
    exact ⟨t, d, (key q t d x).mpr hh⟩
  · intro q t d x hq; exact h.pown q t d x ((key q t d x).mp hq)
  · intro hg q t d x hq
    simp only [upd_apply] at hq
    split at hq
    · exact absurd hq (h2 t d x).2
    · exact h.wr hg q t d x hq

theorem LInv.got {k : Nat} {s : St D} (h : LInv k s) (hi : MRing.Inv k s.ring) {p : Nat} {t : String} {d : D} (h1 : s.pc p = .claiming t d) :
    LInv k { s with
      ring := MRing.claim s.ring p s.ring.cursor 1
      pc := upd s.pc p (.claimed t d (s.ring.cursor + 1))
      accepted := (p, t, d, s.ring.cursor + 1) :: s.accepted } := by
  have hnone : s.ring.owner (s.ring.cursor + 1) = none := by
    cases ho : s.ring.owner (s.ring.cursor + 1) with
    | none => rfl
    | some q => have := (hi.own_rng _ q ho).2; omega
  have hown : ∀ x, (if s.ring.cursor < x ∧ x ≤ s.ring.cursor + 1 then some p else s.ring.owner x) =
      if x = s.ring.cursor + 1 then some p else s.ring.owner x := by
    intro x
    by_cases hx : x = s.ring.cursor + 1
    · rw [if_pos hx, if_pos (by omega)]
    · rw [if_neg hx, if_neg (by omega)]
  have hne : ∀ q u e x, Holds s q u e x → q ≠ p ∧ x ≤ s.ring.cursor := by
    intro q u e x hh
    refine ⟨?_, (hi.own_rng _ q (h.pown q u e x hh).1).2⟩
    intro e; subst e
    simp only [Holds, h1] at hh
    rcases hh with hh | hh <;> cases hh
  refine ⟨⟨rfl, by have := h.chain; simpa [MRing.claim] using this⟩, ?_, ?_, ?_, ?_, ?_, h.bs, h.emq, ?_⟩
  · intro x q hq
    simp only [MRing.claim, hown] at hq
    split at hq
    · next e => cases hq; subst e; exact ⟨t, d, .inl (by simp)⟩
    · obtain ⟨u, e, hh⟩ := h.own x q hq
      refine ⟨u, e, ?_⟩
      simp only [Holds, upd_other _ _ (hne q u e x hh).1]; exact hh
  · intro q u e x hq
    simp only [MRing.claim, hown]
    simp only [Holds, upd_apply] at hq
    split at hq
    · next e' =>
      subst e'
      rcases hq with hq | hq
      · cases hq; exact ⟨by simp, List.mem_cons_self ..⟩
      · cases hq
    · have hh : Holds s q u e x := hq
      have := hne q u e x hh
      rw [if_neg (by omega)]
      exact ⟨(h.pown q u e x hh).1, List.mem_cons_of_mem _ (h.pown q u e x hh).2⟩
  · intro hg q u e x hq
    simp only [upd_apply] at hq
    split at hq
    · cases hq
    · exact h.wr hg q u e x hq
  · intro hg q u e x hm hb w hw
    simp only [MRing.claim] at hw
    rcases List.mem_cons.mp hm with hm | hm
    · cases hm; rw [hi.pub_none _ (by omega)] at hw; cases hw
    · exact h.acc hg q u e x hm hb w hw
  · intro hg x hx hx' ho
    simp only [MRing.claim, hown] at ho hx'
    split at ho
    · cases ho
    · exact h.fresh hg x hx (by omega) ho
  · intro hg e he
    obtain ⟨q, u, e', h3, h4⟩ := h.em hg e he
    exact ⟨q, u, e', List.mem_cons_of_mem _ h3, h4⟩

theorem LInv.write {k : Nat} (hk : k ≤ 30) {s : St D} (h : LInv k s) (hi : MRing.Inv k s.ring) {p : Nat} {t : String} {d : D} {x : Int}
    (h1 : s.pc p = .claimed t d x) (h2 : s.ring.owner x = some p) :
    LInv k { s with
      ring := { s.ring with slot := upd s.ring.slot (slotIdx k x) (some (t, d)) }
      cleared := upd s.cleared (slotIdx k x) false
      pc := upd s.pc p (.written t d x) } := by
  have key : ∀ q u e y, Holds { s with
      ring := { s.ring with slot := upd s.ring.slot (slotIdx k x) (some (t, d)) }
      cleared := upd s.cleared (slotIdx k x) false
      pc := upd s.pc p (.written t d x) } q u e y ↔ Holds s q u e y := by
    intro q u e y
    simp only [Holds, upd_apply]
    split
    · next e' => subst e'; rw [h1]; simp [eq_comm]
    · exact Iff.rfl
  refine ⟨h.chain, ?_, ?_, ?_, h.acc, ?_, h.bs, h.emq, h.em⟩
  · intro y q hq
    obtain ⟨u, e, hh⟩ := h.own y q hq
    exact ⟨u, e, (key q u e y).mpr hh⟩
  · intro q u e y hq; exact h.pown q u e y ((key q u e y).mp hq)
  · intro hg q u e y hq
    simp only [upd_apply] at hq
    split at hq
    · cases hq; simp
    · next hqp =>
      have ho := (h.pown q u e y (.inr hq)).1
      have hne : slotIdx k y ≠ slotIdx k x := by
        intro he
        have : y = x := hi.uniq hg (hi.own_gt y q ho 0 hg) (hi.own_rng y q ho).2 (hi.own_gt x p h2 0 hg) (hi.own_rng x p h2).2
          (MRing.emod_of_sidx hk he)
        subst this
        rw [h2] at ho; cases ho; exact hqp rfl
      simp only [upd_other _ _ hne]
      exact h.wr hg q u e y hq
  · intro hg y hy hy' ho
    simp only [upd_apply]
    split
    · rfl
    · exact h.fresh hg y hy hy' ho

theorem LInv.publish {k : Nat} {s : St D} (h : LInv k s) {p : Nat} {t : String} {d : D} {x : Int}
    (h1 : s.pc p = .written t d x) :
    LInv k { s with
      ring := { s.ring with
        avail := upd s.ring.avail (availIdx k x) (availFlag k x)
        owner := upd s.ring.owner x none
        pub := upd s.ring.pub x (some (s.ring.slot (slotIdx k x))) }
      pc := upd s.pc p .idle } := by
  have hpx := h.pown p t d x (.inr h1)
  refine ⟨h.chain, ?_, ?_, ?_, ?_, ?_, h.bs, h.emq, h.em⟩
  · intro y q hq
    simp only [upd_apply] at hq
    split at hq
    · cases hq
    · next hy =>
      obtain ⟨u, e, hh⟩ := h.own y q hq
      refine ⟨u, e, ?_⟩
      have hqp : q ≠ p := by
        intro e'; subst e'
        simp only [Holds, h1] at hh
        rcases hh with hh | hh <;> cases hh
        exact hy rfl
      simp only [Holds, upd_other _ _ hqp]; exact hh
  · intro q u e y hq
    simp only [Holds, upd_apply] at hq
    split at hq
    · rcases hq with hq | hq <;> cases hq
    · next hqp =>
      have hh := h.pown q u e y hq
      refine ⟨?_, hh.2⟩
      simp only [upd_apply]
      split
      · next e' => subst e'; rw [hpx.1] at hh; cases hh.1; exact absurd rfl hqp
      · exact hh.1
  · intro hg q u e y hq
    simp only [upd_apply] at hq
    split at hq
    · cases hq
    · exact h.wr hg q u e y hq
  · intro hg q u e y hm hb w hw
    simp only [upd_apply] at hw
    split at hw
    · next e' =>
      subst e'
      have := h.chain.unique hm hpx.2 rfl
      cases this
      cases hw
      exact (h.wr hg _ _ _ _ h1).1
    · exact h.acc hg q u e y hm hb w hw
  · intro hg y hy hy' ho
    simp only [upd_apply] at ho
    split at ho
    · next e' => subst e'; exact (h.wr hg _ _ _ _ h1).2
    · exact h.fresh hg y hy hy' ho

theorem LInv.step {k : Nat} (hk : k ≤ 30) {s s' : St D} {a : Act D} (h : LInv k s) (hi : MRing.Inv k s.ring)
    (hst : s.started = false → s.ring.cp 0 = .idle) (hok : OkAct s a) (e : Eff k s s' a) : LInv k s' := by
  have nohold : ∀ {p : Nat} {t : String} {d : D}, s.pc p = .claiming t d → ∀ u e x, ¬ Holds s p u e x := by
    intro p t d h1 u e x hh
    simp only [Holds, h1] at hh
    rcases hh with hh | hh <;> cases hh
  cases e with
  | call p t d h1 hs' =>
    subst hs'
    exact h.pub (p := p) (.claiming t d) s.ring.cache (upd s.ring.pp p (.tLoad 1)) s.discarded (fun u e x hh => by
      simp only [Holds, h1] at hh
      rcases hh with hh | hh <;> cases hh) (fun _ _ _ => ⟨by simp, by simp⟩)
  | got p t d h1 h2 hs' => subst hs'; exact h.got hi h1
  | refused p t d m h1 hs' => subst hs'; exact h.pub (p := p) .idle m _ _ (nohold h1) (fun _ _ _ => ⟨by simp, by simp⟩)
  | more p t d m pc' h1 h2 h3 hs' =>
    subst hs'
    have := h.pub (p := p) (.claiming t d) m (upd s.ring.pp p pc') s.discarded (nohold h1) (fun _ _ _ => ⟨by simp, by simp⟩)
    have e' : upd s.pc p (.claiming t d) = s.pc := by
      funext q; simp only [upd_apply]; split
      · next e => rw [e, h1]
      · rfl
    rw [e'] at this; exact this
  | weak p t d cur h1 h2 hs' =>
    subst hs'
    have := h.pub (p := p) (.claiming t d) s.ring.cache (upd s.ring.pp p (.tLoad 1)) s.discarded (nohold h1) (fun _ _ _ => ⟨by simp, by simp⟩)
    have e' : upd s.pc p (.claiming t d) = s.pc := by
      funext q; simp only [upd_apply]; split
      · next e => rw [e, h1]
      · rfl
    rw [e'] at this; exact this
  | write p t d x h1 h2 hs' => subst hs'; exact h.write hk hi h1 h2
  | publish p t d x h1 h2 hs' => subst hs'; exact h.publish h1
  | start h1 hs' =>
    subst hs'
    have hidle := hst h1
    have hnohold : ∀ p t d x, ¬ Holds s p t d x := by
      intro p t d x hh
      have := (h.pown p t d x hh).1
      rw [hok x] at this; cases this
    refine ⟨h.chain, h.own, h.pown, ?_, ?_, ?_, ?_, ?_, ?_⟩
    · intro _ p t d x hx; exact absurd (.inr hx) (hnohold p t d x)
    · intro _ p t d x hm hb
      simp only [upd_same] at hb
      have := (h.chain.bound.2.2 _ hm).2
      simp only at this; omega
    · intro _ x hx hx'
      simp only [mark, hidle, upd_same] at hx
      simp only at hx'; omega
    · intro _; simp
    · intro _; simp
    · intro _ e he; simp at he
  | run h1 h2 hs' =>
    subst hs'
    have := h.loop' (.wait (s.ring.seq 0 + 1)) s.started (by simp [mark, h2])
    exact this
  | lookNone nx h2 h3 hs' => subst hs'; exact h
  | look nx h2 h3 hs' =>
    subst hs'
    exact h.loop' (.scan nx s.ring.cursor nx) s.started (by simp [mark, h2])
  | scan nx hi' i pc' h2 h3 hs' =>
    subst hs'
    by_cases hg : 0 ∈ s.ring.gating
    · have hc := hi.cons 0 hg
      rw [h2] at hc
      obtain ⟨c1, _⟩ := hc
      refine h.loop' pc' s.started ?_
      rcases h3 with rfl | ⟨av, rfl⟩
      · simp [mark, h2]
      · simp [mark, h2]; omega
    · exact ⟨h.chain, h.own, h.pown, fun g => absurd g hg, fun g => absurd g hg, fun g => absurd g hg, fun g => absurd g hg,
        fun g => absurd g hg, fun g => absurd g hg⟩
  | event nx av h2 h3 hs' =>
    subst hs'
    refine ⟨h.chain, h.own, h.pown, h.wr, h.acc, ?_, h.bs, ?_, ?_⟩
    · intro hg x hx hx' ho
      refine h.fresh hg x ?_ hx' ho
      simp only [mark, upd_same] at hx
      simp only [mark, h2]; exact hx
    · intro hg
      have hseq : (readSlot k s nx).seq = nx := by simp only [readSlot]; split <;> rfl
      simp only [List.map_cons, upd_same, hseq, h.emq hg]
    · intro hg e he
      rcases List.mem_cons.mp he with rfl | he
      · have hc := hi.cons 0 hg
        rw [h2] at hc
        obtain ⟨c1, c2, c3, c4⟩ := hc
        have h0 := hi.seq_ge 0 hg
        have hown := c4 nx c1 h3
        have hpub := hi.slot_pub 0 hg nx c1 (by omega) hown
        obtain ⟨p, t, d, hm⟩ := h.chain.cover (x := nx) (by omega) (by omega)
        have hb := h.bs hg
        have hslot := h.acc hg p t d nx hm (by omega) _ hpub
        have hcl := h.fresh hg nx (by simp only [mark, h2]; omega) (by omega) hown
        have hr : readSlot k s nx = ⟨nx, t, some d⟩ := by simp [readSlot, hslot, hcl]
        exact ⟨p, t, d, by rw [hr]; exact hm, by rw [hr]⟩
      · exact h.em hg e he
  | batchEnd nx av h2 h3 hs' =>
    subst hs'
    by_cases hg : 0 ∈ s.ring.gating
    · have hc := hi.cons 0 hg
      rw [h2] at hc
      obtain ⟨c1, c2, _⟩ := hc
      refine h.loop av (.wait nx) s.started ?_ (fun _ => by omega)
      simp [mark, h2]; omega
    · exact ⟨h.chain, h.own, h.pown, fun g => absurd g hg, fun g => absurd g hg, fun g => absurd g hg, fun g => absurd g hg,
        fun g => absurd g hg, fun g => absurd g hg⟩
  | finish nx av h2 hs' =>
    subst hs'
    refine ⟨h.chain, h.own, h.pown, ?_, h.acc, ?_, h.bs, h.emq, h.em⟩
    · intro hg p t d x hx
      have hc := hi.cons 0 hg
      rw [h2] at hc
      obtain ⟨c1, c2, c3, c4⟩ := hc
      have ho := (h.pown p t d x (.inr hx)).1
      have hne : slotIdx k x ≠ slotIdx k nx := by
        intro he
        have : x = nx := hi.uniq hg (hi.own_gt x p ho 0 hg) (hi.own_rng x p ho).2 c1 (by omega) (MRing.emod_of_sidx hk he)
        subst this
        rw [c4 x c1 c2] at ho; cases ho
      simp only [upd_other _ _ hne]
      exact h.wr hg p t d x hx
    · intro hg x hx hx' ho
      have hc := hi.cons 0 hg
      rw [h2] at hc
      obtain ⟨c1, c2, c3, c4⟩ := hc
      simp only [mark, upd_same] at hx
      have hne : slotIdx k x ≠ slotIdx k nx := by
        intro he
        simp only at hx'
        have : x = nx := hi.uniq hg (by omega) hx' c1 (by omega) (MRing.emod_of_sidx hk he)
        omega
      simp only [upd_other _ _ hne]
      exact h.fresh hg x (by simp only [mark, h2]; omega) hx' ho
  | throw nx av h2 hs' =>
    subst hs'
    by_cases hg : 0 ∈ s.ring.gating
    · have hc := hi.cons 0 hg
      rw [h2] at hc
      obtain ⟨c1, c2, _⟩ := hc
      refine h.loop nx (.wait (nx + 1)) s.started ?_ (fun _ => by omega)
      simp [mark, h2]
    · exact ⟨h.chain, h.own, h.pown, fun g => absurd g hg, fun g => absurd g hg, fun g => absurd g hg, fun g => absurd g hg,
        fun g => absurd g hg, fun g => absurd g hg⟩
  | stop nx h1 h2 hs' =>
    subst hs'
    exact h.loop' .idle false (by simp [mark, h2])

theorem Reach.lInv {k : Nat} (hk : k ≤ 30) {P : St D → Act D → Prop} {s : St D} (h : Reach k P s) : LInv k s := by
  induction h with
  | init => exact LInv.init k
  | step hr _ hok hs ih => exact ih.step hk (hr.inv hk) hr.stopped hok (step_eff hr.pcInv hs)

end Verif.EvLoop
