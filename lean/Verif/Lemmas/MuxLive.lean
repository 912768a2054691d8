import Verif.Spec.MuxLive
import Verif.Lemmas.Fair

/-! Liveness of the data multiplexer. -/

namespace Verif.Mux
open Verif Verif.Disr Verif.Fair

variable {T : Type}

/-- What a step that is not one of subscriber `c` leaves alone. -/
structure Same (c : Nat) (s s' : St T) : Prop where
  gating : c ∈ s'.ring.gating
  cp : s'.ring.cp c = s.ring.cp c
  seq : s'.ring.seq c = s.ring.seq c
  base : s'.ring.base c = s.ring.base c
  dl : s'.dl c = s.dl c

theorem other_step {shared : Bool} {k : Nat} {s s' : St T} {a : Act T} {c : Nat} (e : Eff shared k s s' a) (hok : OkAct s a)
    (hm : c ∈ s.ring.gating) (hc : s.ring.cp c ≠ .idle) (ht : ¬ Turn c a) (hl : a ≠ .leave c) : Same c s s' := by
  have out : SameOut s.ring s'.ring → s'.dl = s.dl → Same c s s' := fun h1 h2 =>
    ⟨h1.gating ▸ hm, by rw [h1.cp], by rw [h1.seq], by rw [h1.base], by rw [h2]⟩
  cases e with
  | callGot op h1 h2 h3 h4 h5 => exact out h2 (by rw [h5])
  | callScan op h1 h2 h3 h4 h5 => exact out h2 (by rw [h5])
  | scanGot op h1 h2 h3 h4 h5 => exact out h2 (by rw [h5])
  | scanMore op h1 h2 h3 h4 h5 => exact out h2 (by rw [h5])
  | scanRefused op h1 h2 h3 h4 h6 h5 => exact out h2 (by rw [h5])
  | writeFresh v x h1 h2 h3 => subst h3; exact ⟨hm, rfl, rfl, rfl, rfl⟩
  | writeIn f x h1 h3 => subst h3; exact ⟨hm, rfl, rfl, rfl, rfl⟩
  | throwFresh v x g h1 h3 => subst h3; exact ⟨hm, rfl, rfl, rfl, rfl⟩
  | throwIn f x g h1 h3 => subst h3; exact ⟨hm, rfl, rfl, rfl, rfl⟩
  | publish op y h1 h2 h3 => subst h3; exact ⟨hm, rfl, rfl, rfl, rfl⟩
  | subscribe d h =>
    have hne : c ≠ d := fun e => hc (by rw [e]; exact hok.2)
    subst h
    exact ⟨List.mem_append.mpr (.inl hm), rfl, upd_other _ _ hne, upd_other _ _ hne, upd_other _ _ hne⟩
  | run d h1 h2 h3 h4 h5 h6 h7 =>
    have hne : c ≠ d := fun e => hc (by rw [e]; exact h4)
    exact ⟨h1.gating ▸ hm, by rw [h5, upd_other _ _ hne], by rw [h6], by rw [h1.base], by rw [h3.dl]⟩
  | look d nx h1 h2 h3 h4 h5 h6 h7 =>
    have hne : c ≠ d := fun e => ht (by subst e; exact .inl rfl)
    refine ⟨h1.gating ▸ hm, ?_, by rw [h6], by rw [h1.base], by rw [h3.dl]⟩
    rcases h5 with h5 | ⟨_, h5⟩
    · rw [h5]
    · rw [h5, upd_other _ _ hne]
  | event d nx av h1 h2 h4 hle h3 h5 h6 h7 =>
    have hne : c ≠ d := fun e => ht (by subst e; exact .inr (.inl rfl))
    refine ⟨h1.gating ▸ hm, by rw [h5, upd_other _ _ hne], by rw [h6], by rw [h1.base], ?_⟩
    split at h3
    · rw [h3.1, upd_other _ _ hne]
    · rw [h3.1]
  | batchEnd d nx av h1 h2 h3 h4 hgt h5 h6 h7 =>
    have hne : c ≠ d := fun e => ht (by subst e; exact .inr (.inl rfl))
    exact ⟨h1.gating ▸ hm, by rw [h5, upd_other _ _ hne], by rw [h6, upd_other _ _ hne], by rw [h1.base], by rw [h3.dl]⟩
  | finish d nx av h1 h2 h3 h4 h5 h6 h7 =>
    have hne : c ≠ d := fun e => ht (by subst e; exact .inr (.inr (.inl rfl)))
    exact ⟨h1.gating ▸ hm, by rw [h5, upd_other _ _ hne], by rw [h6], by rw [h1.base], by rw [h3.dl]⟩
  | throw d nx h1 h2 h3 h4 h5 h6 h7 =>
    have hne : c ≠ d := fun e => ht (by subst e; exact .inr (.inr (.inr rfl)))
    exact ⟨h1.gating ▸ hm, by rw [h5, upd_other _ _ hne], by rw [h6, upd_other _ _ hne], by rw [h1.base], by rw [h3.dl]⟩
  | leave d nx h1 h2 h3 h4 h5 h6 h7 =>
    have hne : c ≠ d := fun e => hl (by rw [e])
    exact ⟨h1.gating ▸ hm, by rw [h5, upd_other _ _ hne], by rw [h6], by rw [h1.base], by rw [h3.dl]⟩

/-- A step of subscriber `c`, by cases. -/
inductive Own (c : Nat) (s s' : St T) : Prop where
  | none (h : s.ring.cp c = .wait (s.ring.seq c + 1)) (h1 : s.ring.cursor < s.ring.seq c + 1) (h2 : s'.ring.cp c = s.ring.cp c) (h3 : s'.ring.seq c = s.ring.seq c)
  | look (nx) (h : s.ring.cp c = .wait nx) (h1 : nx ≤ s.ring.cursor) (h2 : s'.ring.cp c = .batch nx s.ring.cursor) (h3 : s'.ring.seq c = s.ring.seq c)
  | event (nx av) (h : s.ring.cp c = .batch nx av) (h1 : nx ≤ av) (h2 : s'.ring.cp c = .handle nx av) (h3 : s'.ring.seq c = s.ring.seq c)
  | ends (nx av) (h : s.ring.cp c = .batch nx av) (h1 : av < nx) (h2 : s'.ring.cp c = .wait nx) (h3 : s'.ring.seq c = av)
  | finish (nx av) (h : s.ring.cp c = .handle nx av) (h2 : s'.ring.cp c = .batch (nx + 1) av) (h3 : s'.ring.seq c = s.ring.seq c)
  | throw (nx) (h : s.ring.cp c = .handle nx nx) (h2 : s'.ring.cp c = .wait (nx + 1)) (h3 : s'.ring.seq c = nx)

theorem own_step {shared : Bool} {k : Nat} {s s' : St T} {a : Act T} {c : Nat} (hp : PcInv s) (hi : SRing.CInv s.ring c (s.ring.cp c))
    (hs : step shared k s a = some s') (hm : c ∈ s.ring.gating) (ht : Turn c a) :
    Own c s s' ∧ c ∈ s'.ring.gating ∧ s'.ring.base c = s.ring.base c := by
  have e := step_eff hp hs
  rcases ht with rfl | rfl | rfl | rfl
  · cases e with
    | look _ nx h1 h2 h3 h4 h5 h6 h7 =>
      refine ⟨?_, h1.gating ▸ hm, by rw [h1.base]⟩
      rw [h4] at hi; simp only [SRing.CInv] at hi
      by_cases hlt : s.ring.cursor < nx
      · have hcp : s'.ring.cp c = s.ring.cp c := by
          rcases h5 with h5 | ⟨h5, _⟩
          · rw [h5]
          · omega
        exact .none (by rw [h4, hi]) (by omega) hcp (by rw [h6])
      · refine .look nx h4 (by omega) ?_ (by rw [h6])
        simp only [step, lift, SRing.step, h4] at hs
        rw [if_neg hlt] at hs
        cases hs
        exact upd_same _ _ _
  · cases e with
    | event _ nx av h1 h2 h4 hle h3 h5 h6 h7 =>
      exact ⟨.event nx av h4 hle (by rw [h5, upd_same]) (by rw [h6]), h1.gating ▸ hm, by rw [h1.base]⟩
    | batchEnd _ nx av h1 h2 h3 h4 hgt h5 h6 h7 =>
      exact ⟨.ends nx av h4 hgt (by rw [h5, upd_same]) (by rw [h6, upd_same]), h1.gating ▸ hm, by rw [h1.base]⟩
  · cases e with
    | finish _ nx av h1 h2 h3 h4 h5 h6 h7 =>
      exact ⟨.finish nx av h4 (by rw [h5, upd_same]) (by rw [h6]), h1.gating ▸ hm, by rw [h1.base]⟩
  · cases e with
    | throw _ nx h1 h2 h3 h4 h5 h6 h7 =>
      exact ⟨.throw nx h4 (by rw [h5, upd_same]) (by rw [h6, upd_same]), h1.gating ▸ hm, by rw [h1.base]⟩

theorem Own.running {c : Nat} {s s' : St T} (h : Own c s s') : s'.ring.cp c ≠ .idle := by
  cases h with
  | none h h1 h2 h3 => rw [h2, h]; nofun
  | look nx h h1 h2 h3 => rw [h2]; nofun
  | event nx av h h1 h2 h3 => rw [h2]; nofun
  | ends nx av h h1 h2 h3 => rw [h2]; nofun
  | finish nx av h h2 h3 => rw [h2]; nofun
  | throw nx h h2 h3 => rw [h2]; nofun

theorem cursor_step {shared : Bool} {k : Nat} {s s' : St T} {a : Act T} (e : Eff shared k s s' a) :
    s.ring.cursor ≤ s'.ring.cursor ∧ s.done ≤ s'.done ∧ (s'.done = s.done → s'.ring.cursor = s.ring.cursor) := by
  have same : s'.ring.cursor = s.ring.cursor → s'.done = s.done →
      s.ring.cursor ≤ s'.ring.cursor ∧ s.done ≤ s'.done ∧ (s'.done = s.done → s'.ring.cursor = s.ring.cursor) :=
    fun h1 h2 => ⟨by omega, by omega, fun _ => h1⟩
  cases e with
  | callGot op h1 h2 h3 h4 h5 => exact same h2.cursor (by rw [h5])
  | callScan op h1 h2 h3 h4 h5 => exact same h2.cursor (by rw [h5])
  | scanGot op h1 h2 h3 h4 h5 => exact same h2.cursor (by rw [h5])
  | scanMore op h1 h2 h3 h4 h5 => exact same h2.cursor (by rw [h5])
  | scanRefused op h1 h2 h3 h4 h6 h5 => exact same h2.cursor (by rw [h5])
  | writeFresh v x h1 h2 h3 => subst h3; exact same rfl rfl
  | writeIn f x h1 h3 => subst h3; exact same rfl rfl
  | throwFresh v x g h1 h3 => subst h3; exact same rfl rfl
  | throwIn f x g h1 h3 => subst h3; exact same rfl rfl
  | publish op y h1 h2 h3 =>
    subst h3
    refine ⟨Int.le_of_lt h2.1, Nat.le_succ _, fun e => ?_⟩
    simp only at e
    omega
  | subscribe d h => subst h; exact same rfl rfl
  | run d h1 h2 h3 h4 h5 h6 h7 => exact same h1.cursor h2.done
  | look d nx h1 h2 h3 h4 h5 h6 h7 => exact same h1.cursor h2.done
  | event d nx av h1 h2 h4 hle h3 h5 h6 h7 => exact same h1.cursor h2.done
  | batchEnd d nx av h1 h2 h3 h4 hgt h5 h6 h7 => exact same h1.cursor h2.done
  | finish d nx av h1 h2 h3 h4 h5 h6 h7 => exact same h1.cursor h2.done
  | throw d nx h1 h2 h3 h4 h5 h6 h7 => exact same h1.cursor h2.done
  | leave d nx h1 h2 h3 h4 h5 h6 h7 => exact same h1.cursor h2.done

/-! Facts about one execution. -/

variable {shared : Bool} {k : Nat} {v : T} {σ : Nat → St T} {α : Nat → Option (Act T)}

theorem Run.next (h : Run shared k v σ α) (i : Nat) :
    σ (i + 1) = σ i ∧ α i = none ∨ ∃ a, α i = some a ∧ OkAct (σ i) a ∧ step shared k (σ i) a = some (σ (i + 1)) := by
  have := h.exec i
  cases e : α i with
  | none => rw [e] at this; exact .inl ⟨this, rfl⟩
  | some a => rw [e] at this; exact .inr ⟨a, rfl, h.ok i a e, this⟩

theorem Run.reach (h : Run shared k v σ α) (i : Nat) : Reach shared k (fun _ => True) v (σ i) := by
  induction i with
  | zero => exact h.start
  | succ i ih =>
    rcases h.next i with ⟨e, _⟩ | ⟨a, _, hok, hs⟩
    · rw [e]; exact ih
    · exact .step ih trivial hok hs

theorem Run.pcInv (h : Run shared k v σ α) (i : Nat) : PcInv (σ i) := (h.reach i).pcInv h.hk

theorem Run.inv (h : Run shared k v σ α) (i : Nat) : SRing.Inv k (σ i).ring := (h.reach i).ring.inv h.hk

theorem Run.mono (h : Run shared k v σ α) {i j : Nat} (hij : i ≤ j) : (σ i).ring.cursor ≤ (σ j).ring.cursor ∧ (σ i).done ≤ (σ j).done ∧
    ((σ j).done = (σ i).done → (σ j).ring.cursor = (σ i).ring.cursor) := by
  induction hij with
  | refl => exact ⟨Int.le_refl _, Nat.le_refl _, fun _ => rfl⟩
  | step _ ih =>
    rename_i j _
    rcases h.next j with ⟨e, _⟩ | ⟨a, _, _, hs⟩
    · rw [e]; exact ih
    · obtain ⟨h1, h2, h3⟩ := cursor_step (step_eff (h.pcInv j) hs)
      obtain ⟨g1, g2, g3⟩ := ih
      show _ ≤ (σ (j + 1)).ring.cursor ∧ _ ≤ (σ (j + 1)).done ∧ ((σ (j + 1)).done = _ → (σ (j + 1)).ring.cursor = _)
      exact ⟨by omega, by omega, fun e => (h3 (by omega)).trans (g3 (by omega))⟩

/-- A subscriber that is alive stays so. -/
theorem Alive.at (h : Run shared k v σ α) {c i : Nat} (ha : Alive σ α c i) {j : Nat} (hij : i ≤ j) :
    c ∈ (σ j).ring.gating ∧ (σ j).ring.cp c ≠ .idle ∧ (σ j).ring.base c = (σ i).ring.base c := by
  induction hij with
  | refl => exact ⟨ha.member, ha.running, rfl⟩
  | step hm ih =>
    rename_i j
    obtain ⟨h1, h2, h3⟩ := ih
    rcases h.next j with ⟨e, _⟩ | ⟨a, hj, hok, hs⟩
    · rw [e]; exact ⟨h1, h2, h3⟩
    · by_cases ht : Turn c a
      · obtain ⟨o, o1, o2⟩ := own_step (h.pcInv j) ((h.inv j).cons c h1) hs h1 ht
        exact ⟨o1, o.running, o2.trans h3⟩
      · have o := other_step (step_eff (h.pcInv j) hs) hok h1 h2 ht (fun e => ha.stays j hm (by rw [hj, e]))
        exact ⟨o.gating, by rw [o.cp]; exact h2, o.base.trans h3⟩

theorem Alive.from (h : Run shared k v σ α) {c i : Nat} (ha : Alive σ α c i) {j : Nat} (hij : i ≤ j) : Alive σ α c j :=
  ⟨(ha.at h hij).1, (ha.at h hij).2.1, fun l hl => ha.stays l (Nat.le_trans hij hl), ha.fair⟩

/-- How much subscriber `c` has still to do until it waits having consumed `x`. -/
def left (k : Nat) (c : Nat) (x : Int) (s : St T) : Nat :=
  match s.ring.cp c with
  | .idle => 0
  | .wait nx => if x < nx then 0 else 2 * 2 ^ k + 6
  | .batch nx av => 2 * (av + 1 - nx).toNat + 1 + (if x ≤ av then 0 else 2 * 2 ^ k + 7)
  | .handle nx av => 2 * (av + 1 - nx).toNat + (if x ≤ av then 0 else 2 * 2 ^ k + 7)

/-- A running subscriber comes, in the end, to a point where it waits and has consumed `x`. -/
theorem Alive.catches_up (h : Run shared k v σ α) {c i : Nat} (ha : Alive σ α c i) {x : Int} (hx : x ≤ (σ i).ring.cursor) :
    ∃ j, i ≤ j ∧ x ≤ (σ j).ring.seq c ∧ ∃ nx, (σ j).ring.cp c = .wait nx := by
  refine Fair.eventually (Turn c) (fun s : St T => x ≤ s.ring.seq c ∧ ∃ nx, s.ring.cp c = .wait nx) (left k c x) i
    (fun j hj => ha.fair j (fun l hl => (ha.at h (Nat.le_trans hj hl)).2.1)) ?_
  intro j hj hg
  obtain ⟨h1, h2, _⟩ := ha.at h hj
  have hxj : x ≤ (σ j).ring.cursor := Int.le_trans hx (h.mono hj).1
  have hci := (h.inv j).cons c h1
  have hov := (h.inv j).over c h1
  have hcl := (h.inv j).cur_le
  rcases h.next j with ⟨e, en⟩ | ⟨a, hja, hok, hs⟩
  · rw [e]; exact ⟨Nat.le_refl _, fun a ha => by rw [en] at ha; cases ha⟩
  · by_cases ht : Turn c a
    · have key : left k c x (σ (j + 1)) < left k c x (σ j) := by
        have hpw : ((2 ^ k : Nat) : Int) = 2 ^ k := by push_cast; rfl
        cases (own_step (h.pcInv j) hci hs h1 ht).1 with
        | none e1 e2 e3 e4 =>
          exfalso
          exact hg ⟨by have := (h.inv j).seq_le c h1; omega, _, e1⟩
        | look nx e1 e2 e3 e4 =>
          rw [e1] at hci; simp only [SRing.CInv] at hci
          simp only [left, e1, e3]
          rw [if_pos hxj, if_neg (fun hlt => hg ⟨by omega, _, e1⟩)]
          omega
        | event nx av e1 e2 e3 e4 =>
          simp only [left, e1, e3]
          omega
        | ends nx av e1 e2 e3 e4 =>
          rw [e1] at hci; simp only [SRing.CInv] at hci
          simp only [left, e1, e3]
          split <;> split <;> omega
        | finish nx av e1 e3 e4 =>
          rw [e1] at hci; simp only [SRing.CInv] at hci
          simp only [left, e1, e3]
          omega
        | throw nx e1 e3 e4 =>
          simp only [left, e1, e3]
          split <;> split <;> omega
      exact ⟨Nat.le_of_lt key, fun _ _ _ => key⟩
    · have o := other_step (step_eff (h.pcInv j) hs) hok h1 h2 ht (fun e => ha.stays j hj (by rw [hja, e]))
      have : left k c x (σ (j + 1)) = left k c x (σ j) := by simp only [left, o.cp]
      exact ⟨Nat.le_of_eq this, fun b hb ht' => by rw [hja] at hb; cases hb; exact absurd ht' ht⟩

/-! The publishing thread. -/

/-- How much the publisher has still to do in its call. -/
def pubLeft (s : St T) : Nat :=
  match s.pc, s.ring.pp with
  | .idle, _ => 0
  | .claiming _, .tScan _ rest _ => rest.length + 3
  | .claiming _, _ => 3
  | .writing _ _, _ => 2
  | .ready _ _, _ => 1

/-- A step of the publisher inside a call, by cases. -/
inductive PubOwn (k : Nat) (s s' : St T) : Prop where
  | more (op d rest m) (h : s.pc = .claiming op) (h1 : s.ring.pp = .tScan 1 (d :: rest) m) (h2 : s'.pc = .claiming op)
      (h3 : s'.ring.pp = .tScan 1 rest (if s.ring.seq d < m then s.ring.seq d else m)) (h4 : s'.ring.nextVal = s.ring.nextVal)
  | refused (op m) (h : s.pc = .claiming op) (h1 : s.ring.pp = .tScan 1 [] m) (hm : s.ring.nextVal + 1 - 2 ^ k > m) (h2 : s'.pc = .idle)
      (h4 : s'.ring.nextVal = s.ring.nextVal)
  | claimed (op m) (h : s.pc = .claiming op) (h1 : s.ring.pp = .tScan 1 [] m) (h2 : s'.pc = .writing op s'.ring.nextVal)
  | wrote (op x) (h : s.pc = .writing op x) (h2 : s'.pc = .ready op x)
  | threw (op x) (h : s.pc = .writing op x) (h2 : s'.pc = .idle)
  | published (op x) (h : s.pc = .ready op x) (h2 : s'.pc = .idle) (h3 : s'.done = s.done + 1)

theorem pub_own {s s' : St T} {a : Act T} (hp : PcInv s) (hs : step shared k s a = some s') (ht : PubTurn a) :
    PubOwn k s s' ∧ ((∃ op x, s.pc = .writing op x) → s'.pc = .idle → ∃ g, a = .writeThrows g) := by
  have e := step_eff hp hs
  rcases ht with rfl | rfl | ⟨g, rfl⟩ | rfl
  · simp only [step] at hs
    split at hs
    · next op hpc =>
      simp only [PcInv, hpc] at hp
      obtain ⟨rest, m, hpp⟩ := hp
      refine ⟨?_, fun ⟨_, _, e⟩ => by rw [hpc] at e; cases e⟩
      simp only [SRing.step, SRing.pstep, hpp] at hs
      cases rest with
      | nil =>
        simp only at hs
        split at hs
        · next hm =>
          simp only [Option.map_some, Option.some.injEq, afterClaim, if_true] at hs
          subst hs
          exact .refused op m hpc hpp hm rfl rfl
        · next hm =>
          simp only [Option.map_some, Option.some.injEq, afterClaim, SRing.claim, if_true] at hs
          rw [if_neg (by omega)] at hs
          subst hs
          exact .claimed op m hpc hpp rfl
      | cons d rest =>
        simp only [Option.map_some, Option.some.injEq, afterClaim, reduceCtorEq, if_false] at hs
        subst hs
        exact .more op d rest m hpc hpp rfl rfl rfl
    · cases hs
  · cases e with
    | writeFresh v x h1 h2 h3 => exact ⟨.wrote _ _ h1 (by rw [h3]), fun _ e => by rw [h3] at e; cases e⟩
    | writeIn f x h1 h3 => exact ⟨.wrote _ _ h1 (by rw [h3]), fun _ e => by rw [h3] at e; cases e⟩
  · cases e with
    | throwFresh v x g h1 h3 => exact ⟨.threw _ _ h1 (by rw [h3]), fun _ _ => ⟨_, rfl⟩⟩
    | throwIn f x g h1 h3 => exact ⟨.threw _ _ h1 (by rw [h3]), fun _ _ => ⟨_, rfl⟩⟩
  · cases e with
    | publish op x h1 h2 h3 =>
      exact ⟨.published op x h1 (by rw [h3]) (by rw [h3]), fun ⟨_, _, e⟩ => by rw [h1] at e; cases e⟩

/-- A step of another thread leaves the publisher where it is. -/
theorem pub_other {s s' : St T} {a : Act T} (hp : PcInv s) (hs : step shared k s a = some s') (ht : ¬ PubTurn a) (hb : (s.pc matches .idle) = false) :
    s'.pc = s.pc ∧ s'.ring.pp = s.ring.pp ∧ s'.ring.nextVal = s.ring.nextVal ∧ s'.done = s.done := by
  have e := step_eff hp hs
  cases e with
  | callGot op h1 h2 h3 h4 h5 => rw [h1] at hb; cases hb
  | callScan op h1 h2 h3 h4 h5 => rw [h1] at hb; cases hb
  | scanGot op h1 h2 h3 h4 h5 => exact absurd (.inl rfl) ht
  | scanMore op h1 h2 h3 h4 h5 => exact absurd (.inl rfl) ht
  | scanRefused op h1 h2 h3 h4 h6 h5 => exact absurd (.inl rfl) ht
  | writeFresh v x h1 h2 h3 => exact absurd (.inr (.inl rfl)) ht
  | writeIn f x h1 h3 => exact absurd (.inr (.inl rfl)) ht
  | throwFresh v x g h1 h3 => exact absurd (.inr (.inr (.inl ⟨_, rfl⟩))) ht
  | throwIn f x g h1 h3 => exact absurd (.inr (.inr (.inl ⟨_, rfl⟩))) ht
  | publish op y h1 h2 h3 => exact absurd (.inr (.inr (.inr rfl))) ht
  | subscribe d h => subst h; exact ⟨rfl, rfl, rfl, rfl⟩
  | run d h1 h2 h3 h4 h5 h6 h7 => exact ⟨h2.pc, h1.pp, h1.nextVal, h2.done⟩
  | look d nx h1 h2 h3 h4 h5 h6 h7 => exact ⟨h2.pc, h1.pp, h1.nextVal, h2.done⟩
  | event d nx av h1 h2 h4 hle h3 h5 h6 h7 => exact ⟨h2.pc, h1.pp, h1.nextVal, h2.done⟩
  | batchEnd d nx av h1 h2 h3 h4 hgt h5 h6 h7 => exact ⟨h2.pc, h1.pp, h1.nextVal, h2.done⟩
  | finish d nx av h1 h2 h3 h4 h5 h6 h7 => exact ⟨h2.pc, h1.pp, h1.nextVal, h2.done⟩
  | throw d nx h1 h2 h3 h4 h5 h6 h7 => exact ⟨h2.pc, h1.pp, h1.nextVal, h2.done⟩
  | leave d nx h1 h2 h3 h4 h5 h6 h7 => exact ⟨h2.pc, h1.pp, h1.nextVal, h2.done⟩

theorem PubOwn.less {s s' : St T} (h : PubOwn k s s') : pubLeft s' < pubLeft s := by
  cases h with
  | more op d rest m h h1 h2 h3 h4 => simp [pubLeft, h, h1, h2, h3]
  | refused op m h h1 hm h2 h4 => simp [pubLeft, h, h1, h2]
  | claimed op m h h1 h2 => simp [pubLeft, h, h1, h2]
  | wrote op x h h2 => simp [pubLeft, h, h2]
  | threw op x h h2 => simp [pubLeft, h, h2]
  | published op x h h2 h3 => simp [pubLeft, h, h2]

theorem pubLeft_congr {s s' : St T} (h1 : s'.pc = s.pc) (h2 : s'.ring.pp = s.ring.pp) : pubLeft s' = pubLeft s := by
  simp only [pubLeft, h1, h2]

/-- A call of the publisher ends. -/
theorem Run.call_ends (h : Run shared k v σ α) (hf : PubFair σ α) (i : Nat) : ∃ j, i ≤ j ∧ ((σ j).pc matches .idle) = true := by
  apply Classical.byContradiction
  intro hno
  have hb : ∀ j, i ≤ j → ((σ j).pc matches .idle) = false := fun j hj =>
    Bool.eq_false_iff.mpr (fun e => hno ⟨j, hj, e⟩)
  obtain ⟨j, hj, e⟩ := Fair.eventually (σ := σ) (α := α) PubTurn (fun s : St T => (s.pc matches .idle) = true) pubLeft i
    (fun j hj => hf j (fun l hl => hb l (Nat.le_trans hj hl))) (by
      intro j hj _
      rcases h.next j with ⟨e, en⟩ | ⟨a, hja, hok, hs⟩
      · rw [e]; exact ⟨Nat.le_refl _, fun a ha => by rw [en] at ha; cases ha⟩
      · by_cases ht : PubTurn a
        · have := (pub_own (h.pcInv j) hs ht).1.less
          exact ⟨Nat.le_of_lt this, fun _ _ _ => this⟩
        · obtain ⟨e1, e2, _⟩ := pub_other (h.pcInv j) hs ht (hb j hj)
          exact ⟨Nat.le_of_eq (pubLeft_congr e1 e2), fun b hb' ht' => by rw [hja] at hb'; cases hb'; exact absurd ht' ht⟩)
  exact hno ⟨j, hj, e⟩

theorem seq_step {s s' : St T} {a : Act T} (hi : SRing.Inv k s.ring) (e : Eff shared k s s' a) :
    (∀ c ∈ s.ring.gating, c ∈ s'.ring.gating ∧ s.ring.seq c ≤ s'.ring.seq c) ∧
    (∀ c ∈ s'.ring.gating, c ∈ s.ring.gating ∨ s.ring.cursor ≤ s'.ring.seq c) := by
  have same : s'.ring.gating = s.ring.gating → s'.ring.seq = s.ring.seq →
      (∀ c ∈ s.ring.gating, c ∈ s'.ring.gating ∧ s.ring.seq c ≤ s'.ring.seq c) ∧
      (∀ c ∈ s'.ring.gating, c ∈ s.ring.gating ∨ s.ring.cursor ≤ s'.ring.seq c) :=
    fun h1 h2 => ⟨fun c hc => ⟨h1 ▸ hc, by rw [h2]⟩, fun c hc => .inl (h1 ▸ hc)⟩
  have one : ∀ d y, s'.ring.gating = s.ring.gating → s'.ring.seq = upd s.ring.seq d y → (d ∈ s.ring.gating → s.ring.seq d ≤ y) →
      (∀ c ∈ s.ring.gating, c ∈ s'.ring.gating ∧ s.ring.seq c ≤ s'.ring.seq c) ∧
      (∀ c ∈ s'.ring.gating, c ∈ s.ring.gating ∨ s.ring.cursor ≤ s'.ring.seq c) := by
    intro d y h1 h2 h3
    refine ⟨fun c hc => ⟨h1 ▸ hc, ?_⟩, fun c hc => .inl (h1 ▸ hc)⟩
    rw [h2]
    by_cases e : c = d
    · subst e; rw [upd_same]; exact h3 hc
    · rw [upd_other _ _ e]
  cases e with
  | callGot op h1 h2 h3 h4 h5 => exact same h2.gating h2.seq
  | callScan op h1 h2 h3 h4 h5 => exact same h2.gating h2.seq
  | scanGot op h1 h2 h3 h4 h5 => exact same h2.gating h2.seq
  | scanMore op h1 h2 h3 h4 h5 => exact same h2.gating h2.seq
  | scanRefused op h1 h2 h3 h4 h6 h5 => exact same h2.gating h2.seq
  | writeFresh v x h1 h2 h3 => subst h3; exact same rfl rfl
  | writeIn f x h1 h3 => subst h3; exact same rfl rfl
  | throwFresh v x g h1 h3 => subst h3; exact same rfl rfl
  | throwIn f x g h1 h3 => subst h3; exact same rfl rfl
  | publish op y h1 h2 h3 => subst h3; exact same rfl rfl
  | subscribe d h =>
    subst h
    constructor
    · intro c hc
      refine ⟨List.mem_append.mpr (.inl hc), ?_⟩
      show _ ≤ upd s.ring.seq d s.ring.cursor c
      by_cases e : c = d
      · subst e; rw [upd_same]; exact hi.seq_le c hc
      · rw [upd_other _ _ e]
    · intro c hc
      rcases List.mem_append.mp hc with hc | hc
      · exact .inl hc
      · simp only [List.mem_singleton] at hc
        subst hc
        refine .inr ?_
        show _ ≤ upd s.ring.seq c s.ring.cursor c
        rw [upd_same]
  | run d h1 h2 h3 h4 h5 h6 h7 => exact same h1.gating h6
  | look d nx h1 h2 h3 h4 h5 h6 h7 => exact same h1.gating h6
  | event d nx av h1 h2 h4 hle h3 h5 h6 h7 => exact same h1.gating h6
  | batchEnd d nx av h1 h2 h3 h4 hgt h5 h6 h7 =>
    refine one d av h1.gating h6 (fun hd => ?_)
    have := hi.cons d hd
    rw [h4] at this; simp only [SRing.CInv] at this
    omega
  | finish d nx av h1 h2 h3 h4 h5 h6 h7 => exact same h1.gating h6
  | throw d nx h1 h2 h3 h4 h5 h6 h7 =>
    refine one d nx h1.gating h6 (fun hd => ?_)
    have := hi.cons d hd
    rw [h4] at this; simp only [SRing.CInv] at this
    omega
  | leave d nx h1 h2 h3 h4 h5 h6 h7 => exact same h1.gating h6

theorem Run.seq_mono (h : Run shared k v σ α) {i j : Nat} (hij : i ≤ j) :
    (∀ c ∈ (σ i).ring.gating, c ∈ (σ j).ring.gating ∧ (σ i).ring.seq c ≤ (σ j).ring.seq c) ∧
    (∀ c ∈ (σ j).ring.gating, c ∈ (σ i).ring.gating ∨ (σ i).ring.cursor ≤ (σ j).ring.seq c) := by
  induction hij with
  | refl => exact ⟨fun c hc => ⟨hc, Int.le_refl _⟩, fun c hc => .inl hc⟩
  | step hm ih =>
    rename_i j
    obtain ⟨g1, g2⟩ := ih
    rcases h.next j with ⟨e, _⟩ | ⟨a, _, _, hs⟩
    · show (∀ c ∈ _, c ∈ (σ (j + 1)).ring.gating ∧ _) ∧ ∀ c ∈ (σ (j + 1)).ring.gating, _ ∨ _ ≤ (σ (j + 1)).ring.seq c
      rw [e]; exact ⟨g1, g2⟩
    · obtain ⟨h1, h2⟩ := seq_step (h.inv j) (step_eff (h.pcInv j) hs)
      refine ⟨fun c hc => ⟨(h1 c (g1 c hc).1).1, Int.le_trans (g1 c hc).2 (h1 c (g1 c hc).1).2⟩, fun c hc => ?_⟩
      rcases h2 c hc with q | q
      · rcases g2 c q with r | r
        · exact .inl r
        · exact .inr (Int.le_trans r (h1 c q).2)
      · exact .inr (Int.le_trans (h.mono hm).1 q)

/-- When all subscribers are alive, everything published so far is consumed by all of them in the end, and by those that come later. -/
theorem Run.drains (h : Run shared k v σ α) {i : Nat} (ha : ∀ c ∈ (σ i).ring.gating, Alive σ α c i) :
    ∃ j, i ≤ j ∧ ∀ l, j ≤ l → ∀ c ∈ (σ l).ring.gating, (σ i).ring.cursor ≤ (σ l).ring.seq c := by
  have key : ∀ cs : List Nat, (∀ c ∈ cs, c ∈ (σ i).ring.gating) → ∃ j, i ≤ j ∧ ∀ c ∈ cs, (σ i).ring.cursor ≤ (σ j).ring.seq c := by
    intro cs
    induction cs with
    | nil => exact fun _ => ⟨i, Nat.le_refl _, nofun⟩
    | cons c cs ih =>
      intro hcs
      obtain ⟨j, hj, q⟩ := ih (fun d hd => hcs d (by simp [hd]))
      have hc := hcs c (by simp)
      obtain ⟨l, hl, r, _⟩ := ((ha c hc).from h hj).catches_up h (h.mono hj).1
      refine ⟨l, Nat.le_trans hj hl, fun d hd => ?_⟩
      simp only [List.mem_cons] at hd
      rcases hd with rfl | hd
      · exact r
      · exact Int.le_trans (q d hd) ((h.seq_mono hl).1 d ((h.seq_mono hj).1 d (hcs d (by simp [hd]))).1).2
  obtain ⟨j, hj, q⟩ := key _ (fun c hc => hc)
  refine ⟨j, hj, fun l hl c hc => ?_⟩
  rcases (h.seq_mono (Nat.le_trans hj hl)).2 c hc with r | r
  · exact Int.le_trans (q c r) ((h.seq_mono hl).1 c ((h.seq_mono hj).1 c r).1).2
  · exact r

/-- The publisher is in a call that will succeed: it has its sequence, or all sequences it has still to look at are at `x`. -/
def Good (k : Nat) (x : Int) (s : St T) : Prop :=
  match s.pc, s.ring.pp with
  | .writing _ _, _ => True
  | .ready _ _, _ => True
  | .claiming _, .tScan _ rest m => x ≤ m ∧ s.ring.nextVal + 1 - 2 ^ k ≤ x ∧ ∀ d ∈ rest, d ∈ s.ring.gating ∧ x ≤ s.ring.seq d
  | _, _ => False

theorem Good.busy {x : Int} {s : St T} (h : Good k x s) : (s.pc matches .idle) = false := by
  unfold Good at h
  split at h
  · next e => rw [e]
  · next e => rw [e]
  · next e _ => rw [e]
  · cases h

theorem Good.step {x : Int} {s s' : St T} {a : Act T} (h : Good k x s) (hp : PcInv s) (hi : SRing.Inv k s.ring) (hs : step shared k s a = some s')
    (hn : ∀ g, a ≠ .writeThrows g) (hd : s'.done = s.done) : Good k x s' := by
  by_cases ht : PubTurn a
  · obtain ⟨o, o2⟩ := pub_own hp hs ht
    cases o with
    | more op d rest m h0 h1 h2 h3 h4 =>
      simp only [Good, h0, h1] at h
      simp only [Good, h2, h3]
      obtain ⟨q1, q2, q3⟩ := h
      refine ⟨?_, by omega, fun c hc => ?_⟩
      · have := (q3 d (by simp)).2
        split <;> omega
      · obtain ⟨r1, r2⟩ := (seq_step hi (step_eff hp hs)).1 c (q3 c (by simp [hc])).1
        exact ⟨r1, Int.le_trans (q3 c (by simp [hc])).2 r2⟩
    | refused op m h0 h1 hm h2 h4 =>
      simp only [Good, h0, h1] at h
      omega
    | claimed op m h0 h1 h2 => simp only [Good, h2]
    | wrote op y h0 h2 => simp only [Good, h2]
    | threw op y h0 h2 =>
      obtain ⟨g, e⟩ := o2 ⟨op, y, h0⟩ h2
      exact absurd e (hn g)
    | published op y h0 h2 h3 => omega
  · obtain ⟨e1, e2, e3, e4⟩ := pub_other hp hs ht h.busy
    unfold Good at h ⊢
    rw [e1, e2, e3]
    split
    · trivial
    · trivial
    · next q1 q2 =>
      rw [q1, q2] at h
      simp only at h
      refine ⟨h.1, h.2.1, fun c hc => ?_⟩
      obtain ⟨r1, r2⟩ := (seq_step hi (step_eff hp hs)).1 c (h.2.2 c hc).1
      exact ⟨r1, Int.le_trans (h.2.2 c hc).2 r2⟩
    · next q1 q2 q3 =>
      split at h
      · next e => exact q1 _ _ e
      · next e => exact q2 _ _ e
      · next e e' => exact q3 _ _ _ _ e e'
      · exact h

/-- In a call that will succeed the publisher publishes, in the end. -/
theorem Run.good_publishes (h : Run shared k v σ α) (hf : PubFair σ α) {i : Nat} (hn : ∀ j, i ≤ j → ∀ g, α j ≠ some (.writeThrows g)) {x : Int}
    (hg : Good k x (σ i)) : ∃ j, i ≤ j ∧ (σ i).done < (σ j).done := by
  apply Classical.byContradiction
  intro hno
  have hd : ∀ j, i ≤ j → (σ j).done = (σ i).done := fun j hj => by
    have := (h.mono hj).2.1
    have : ¬ (σ i).done < (σ j).done := fun e => hno ⟨j, hj, e⟩
    omega
  have all : ∀ j, i ≤ j → Good k x (σ j) := by
    intro j hj
    induction hj with
    | refl => exact hg
    | step hm ih =>
      rename_i j
      rcases h.next j with ⟨e, _⟩ | ⟨a, ha, _, hs⟩
      · show Good k x (σ (j + 1)); rw [e]; exact ih
      · exact ih.step (h.pcInv j) (h.inv j) hs (fun g e => hn j hm g (by rw [ha, e])) ((hd (j + 1) (Nat.le_succ_of_le hm)).trans (hd j hm).symm)
  obtain ⟨j, hj, e⟩ := h.call_ends hf i
  rw [(all j hj).busy] at e
  cases e

theorem nextVal_step {s s' : St T} {a : Act T} (e : Eff shared k s s' a) : s'.ring.nextVal = s.ring.nextVal ∨ ∃ op x, s'.pc = .writing op x := by
  cases e with
  | callGot op h1 h2 h3 h4 h5 => exact .inr ⟨_, _, by rw [h5]⟩
  | callScan op h1 h2 h3 h4 h5 => exact .inl h4
  | scanGot op h1 h2 h3 h4 h5 => exact .inr ⟨_, _, by rw [h5]⟩
  | scanMore op h1 h2 h3 h4 h5 => exact .inl h4
  | scanRefused op h1 h2 h3 h4 h6 h5 => exact .inl h4
  | writeFresh v x h1 h2 h3 => subst h3; exact .inl rfl
  | writeIn f x h1 h3 => subst h3; exact .inl rfl
  | throwFresh v x g h1 h3 => subst h3; exact .inl rfl
  | throwIn f x g h1 h3 => subst h3; exact .inl rfl
  | publish op y h1 h2 h3 => subst h3; exact .inl rfl
  | subscribe d h => subst h; exact .inl rfl
  | run d h1 h2 h3 h4 h5 h6 h7 => exact .inl h1.nextVal
  | look d nx h1 h2 h3 h4 h5 h6 h7 => exact .inl h1.nextVal
  | event d nx av h1 h2 h4 hle h3 h5 h6 h7 => exact .inl h1.nextVal
  | batchEnd d nx av h1 h2 h3 h4 hgt h5 h6 h7 => exact .inl h1.nextVal
  | finish d nx av h1 h2 h3 h4 h5 h6 h7 => exact .inl h1.nextVal
  | throw d nx h1 h2 h3 h4 h5 h6 h7 => exact .inl h1.nextVal
  | leave d nx h1 h2 h3 h4 h5 h6 h7 => exact .inl h1.nextVal

/-- A publisher that goes on calling publishes, in the end. -/
theorem Run.publishes (h : Run shared k v σ α) (hf : PubFair σ α) {i : Nat} (ha : ∀ c ∈ (σ i).ring.gating, Alive σ α c i)
    (hn : ∀ j, i ≤ j → ∀ g, α j ≠ some (.writeThrows g)) (hc : ∀ j, ∃ l, j ≤ l ∧ ∃ op, α l = some (.call op))
    (hN : (σ i).ring.nextVal < (σ i).ring.cursor + 2 ^ k) : ∃ j, i ≤ j ∧ (σ i).done < (σ j).done := by
  apply Classical.byContradiction
  intro hno
  have hd : ∀ j, i ≤ j → (σ j).done = (σ i).done := fun j hj => by
    have := (h.mono hj).2.1
    have : ¬ (σ i).done < (σ j).done := fun e => hno ⟨j, hj, e⟩
    omega
  have bad : ∀ j, i ≤ j → ∀ x, ¬ Good k x (σ j) := by
    intro j hj x hg
    obtain ⟨l, hl, e⟩ := h.good_publishes hf (fun l hl => hn l (Nat.le_trans hj hl)) hg
    exact hno ⟨l, Nat.le_trans hj hl, by rw [← hd j hj]; exact e⟩
  have hnv : ∀ j, i ≤ j → (σ j).ring.nextVal = (σ i).ring.nextVal := by
    intro j hj
    induction hj with
    | refl => rfl
    | step hm ih =>
      rename_i j
      rcases h.next j with ⟨e, _⟩ | ⟨a, ha, _, hs⟩
      · show (σ (j + 1)).ring.nextVal = _; rw [e]; exact ih
      · rcases nextVal_step (step_eff (h.pcInv j) hs) with e | ⟨op, x, e⟩
        · exact e.trans ih
        · exact absurd (by simp only [Good, e]) (bad (j + 1) (Nat.le_succ_of_le hm) 0)
  obtain ⟨j, hj, hdr⟩ := h.drains ha
  obtain ⟨l, hl, op, hal⟩ := hc j
  have hil : i ≤ l := Nat.le_trans hj hl
  refine bad (l + 1) (Nat.le_succ_of_le hil) (σ i).ring.cursor ?_
  rcases h.next l with ⟨_, e⟩ | ⟨a, ha', _, hs⟩
  · rw [hal] at e; cases e
  · rw [hal] at ha'; cases ha'
    simp only [step] at hs
    split at hs
    · next hpc =>
      have hpp : (σ l).ring.pp = .idle := by have := h.pcInv l; simpa [PcInv, hpc] using this
      simp only [SRing.step, hpp] at hs
      rw [if_pos ⟨trivial, by omega⟩] at hs
      split at hs
      · simp only [Option.map_some, Option.some.injEq, afterClaim, reduceCtorEq, if_false] at hs
        rw [← hs]
        simp only [Good]
        have := hnv l hil
        have := (h.inv i).cur_le
        exact ⟨by omega, by omega, fun d hd => ⟨hd, hdr l hl d hd⟩⟩
      · simp only [Option.map_some, Option.some.injEq, afterClaim, SRing.claim, if_true] at hs
        rw [if_neg (by omega)] at hs
        rw [← hs]
        simp only [Good]
    · cases hs

end Verif.Mux
