import Verif.Model.SingleRing
import Verif.Lemmas.Sequencer

/-! Invariant of the single producer ring. -/

namespace Verif.SRing
open Verif Verif.Disr

variable {V : Type}

/-- A gating sequence is added only while every claimed sequence is published and its processor is not running. -/
def OkAct (s : St V) : Act V → Prop
  | .addGating c => s.cursor = s.nextVal ∧ s.cp c = .idle
  | _ => True

inductive Reach (k : Nat) (v : V) : St V → Prop where
  | init : Reach k v (St.init v)
  | step {s s' a} : Reach k v s → OkAct s a → step k s a = some s' → Reach k v s'

def PInv (s : St V) : PPc → Prop
  | .idle => True
  | .nScan n rest m => 1 ≤ n ∧ m ≤ s.nextVal ∧ ∀ c ∈ s.gating, c ∈ rest ∨ m ≤ s.seq c
  | .tScan n rest m => 1 ≤ n ∧ m ≤ s.nextVal ∧ ∀ c ∈ s.gating, c ∈ rest ∨ m ≤ s.seq c

def CInv (s : St V) (c : Nat) : CPc → Prop
  | .idle => True
  | .wait nx => nx = s.seq c + 1
  | .batch nx av => s.seq c < nx ∧ nx ≤ av + 1 ∧ av ≤ s.cursor
  | .handle nx av => s.seq c < nx ∧ nx ≤ av ∧ av ≤ s.cursor

structure Inv (k : Nat) (s : St V) : Prop where
  cur_ge : -1 ≤ s.cursor
  cur_le : s.cursor ≤ s.nextVal
  seq_ge : ∀ c ∈ s.gating, -1 ≤ s.seq c
  cached_le : s.cached ≤ s.nextVal
  cached_seq : ∀ c ∈ s.gating, s.cached ≤ s.seq c
  seq_le : ∀ c ∈ s.gating, s.seq c ≤ s.cursor
  over : ∀ c ∈ s.gating, s.nextVal ≤ s.seq c + 2 ^ k
  pub_none : ∀ x, s.cursor < x → s.pub x = none
  pub_some : ∀ x, 0 ≤ x → x ≤ s.cursor → (s.pub x).isSome
  slot_pub : ∀ c ∈ s.gating, ∀ x, s.seq c < x → x ≤ s.cursor → s.pub x = some (s.slot (slotIdx k x))
  prod : PInv s s.pp
  cons : ∀ c ∈ s.gating, CInv s c (s.cp c)

theorem Inv.init (k : Nat) (v : V) : Inv k (St.init v) := by
  constructor <;> simp [St.init, PInv]
  intros; omega

theorem PInv.mono {s s' : St V} {pc : PPc} (h : PInv s pc) (hc : s'.nextVal = s.nextVal)
    (hg : ∀ c ∈ s'.gating, (c ∈ s.gating ∧ s.seq c ≤ s'.seq c) ∨ s.nextVal ≤ s'.seq c) : PInv s' pc := by
  cases pc with
  | idle => trivial
  | nScan n rest m =>
    obtain ⟨a, c, d⟩ := h
    refine ⟨a, by omega, fun c hc' => ?_⟩
    rcases hg c hc' with ⟨h1, h2⟩ | h1
    · rcases d c h1 with h3 | h3
      · exact Or.inl h3
      · exact Or.inr (by omega)
    · exact Or.inr (by omega)
  | tScan n rest m =>
    obtain ⟨a, c, d⟩ := h
    refine ⟨a, by omega, fun c hc' => ?_⟩
    rcases hg c hc' with ⟨h1, h2⟩ | h1
    · rcases d c h1 with h3 | h3
      · exact Or.inl h3
      · exact Or.inr (by omega)
    · exact Or.inr (by omega)

theorem CInv.mono {s s' : St V} {c : Nat} {pc : CPc} (h : CInv s c pc) (hc : s.cursor ≤ s'.cursor)
    (hs : s'.seq c = s.seq c) : CInv s' c pc := by
  cases pc with
  | idle => trivial
  | wait nx => simp only [CInv] at h ⊢; omega
  | batch nx av => obtain ⟨a, b, d⟩ := h; exact ⟨by omega, b, by omega⟩
  | handle nx av => obtain ⟨a, b, d⟩ := h; exact ⟨by omega, b, by omega⟩

theorem Inv.setPP {k : Nat} {s : St V} (h : Inv k s) (pc : PPc) (m : Int) (r : Nat) (hp : PInv s pc)
    (h1 : m ≤ s.nextVal) (h2 : ∀ c ∈ s.gating, m ≤ s.seq c) : Inv k { s with cached := m, pp := pc, refused := r } := by
  refine { h with cached_le := h1, cached_seq := h2, prod := ?_, cons := ?_ }
  · exact hp.mono rfl (fun c hc => Or.inl ⟨hc, Int.le_refl _⟩)
  · exact fun c hc => (h.cons c hc).mono (Int.le_refl _) rfl

theorem Inv.setPP' {k : Nat} {s : St V} (h : Inv k s) (pc : PPc) (hp : PInv s pc) : Inv k { s with pp := pc } :=
  h.setPP pc s.cached s.refused hp h.cached_le h.cached_seq

theorem Inv.claim {k : Nat} {s : St V} (h : Inv k s) (n m : Int) (hn : 1 ≤ n)
    (hm : m ≤ s.nextVal) (hm2 : ∀ c ∈ s.gating, m ≤ s.seq c) (hg : ∀ c ∈ s.gating, s.nextVal + n - 2 ^ k ≤ s.seq c) :
    Inv k (claim { s with cached := m } n) := by
  have hc := h.cur_le
  refine { h with cur_le := ?_, cached_le := ?_, cached_seq := hm2, over := ?_, prod := trivial, cons := ?_ }
  · simp only [SRing.claim]; omega
  · simp only [SRing.claim]; omega
  · intro c hc'; have := hg c hc'; simp only [SRing.claim]; omega
  · exact fun c hc' => (h.cons c hc').mono (Int.le_refl _) rfl

theorem Inv.claim' {k : Nat} {s : St V} (h : Inv k s) (n : Int) (hn : 1 ≤ n)
    (hc : ¬ (s.nextVal + n - 2 ^ k > s.cached ∨ s.cached > s.nextVal)) : Inv k (SRing.claim s n) :=
  h.claim n s.cached hn h.cached_le h.cached_seq (fun c hc' => by have := h.cached_seq c hc'; omega)

theorem Inv.consumer {k : Nat} {s : St V} (h : Inv k s) (c : Nat) (q : Int) (pc : CPc) (dl : Nat → List (Int × Bool))
    (h1 : c ∈ s.gating → s.seq c ≤ q ∧ q ≤ s.cursor)
    (h2 : c ∈ s.gating → CInv { s with seq := upd s.seq c q } c pc) :
    Inv k { s with seq := upd s.seq c q, cp := upd s.cp c pc, dlog := dl } := by
  have key : ∀ d ∈ s.gating, s.seq d ≤ upd s.seq c q d ∧ upd s.seq c q d ≤ s.cursor := by
    intro d hd
    rw [upd_apply]
    split
    · rename_i he; subst he; exact h1 hd
    · exact ⟨Int.le_refl _, h.seq_le d hd⟩
  refine { h with seq_ge := ?_, cached_seq := ?_, seq_le := ?_, over := ?_, slot_pub := ?_, prod := ?_, cons := ?_ }
  · intro d hd; have := h.seq_ge d hd; have := (key d hd).1; simp only; omega
  · intro d hd; have := h.cached_seq d hd; have := (key d hd).1; simp only; omega
  · intro d hd; exact (key d hd).2
  · intro d hd; have := h.over d hd; have := (key d hd).1; simp only; omega
  · intro d hd x a b
    have := (key d hd).1
    exact h.slot_pub d hd x (by simp only at a; omega) b
  · exact h.prod.mono rfl (fun d hd => Or.inl ⟨hd, (key d hd).1⟩)
  · intro d hd
    by_cases he : d = c
    · subst he
      simp only [upd_same]
      exact (h2 hd).mono (Int.le_refl _) rfl
    · simp only [upd_other _ _ he]
      exact (h.cons d hd).mono (Int.le_refl _) (upd_other _ _ he)

theorem upd_self {α β : Type} [DecidableEq α] (f : α → β) (a : α) : upd f a (f a) = f := by
  funext x; rw [upd_apply]; split <;> simp_all

theorem Inv.consumer' {k : Nat} {s : St V} (h : Inv k s) (c : Nat) (pc : CPc) (dl : Nat → List (Int × Bool))
    (h2 : c ∈ s.gating → CInv s c pc) :
    Inv k { s with cp := upd s.cp c pc, dlog := dl } := by
  have := h.consumer c (s.seq c) pc dl (fun hc => ⟨Int.le_refl _, h.seq_le c hc⟩) (by rw [upd_self]; exact h2)
  rw [upd_self] at this
  exact this

theorem pow_pos' (k : Nat) : (0 : Int) < 2 ^ k := by positivity

theorem Inv.step {k : Nat} (hk : k ≤ 30) {s s' : St V} {a : Act V} (h : Inv k s)
    (hok : OkAct s a) (hs : step k s a = some s') : Inv k s' := by
  have hp := pow_pos' k
  cases a with
  | callNext n =>
    simp only [SRing.step] at hs
    split at hs
    · rename_i hc
      split at hs
      · cases hs; exact h.setPP' _ ⟨hc.2, Int.le_refl _, fun c hc => Or.inl hc⟩
      · rename_i hcond; cases hs; exact h.claim' n hc.2 hcond
    · cases hs
  | callTry n =>
    simp only [SRing.step] at hs
    split at hs
    · rename_i hc
      split at hs
      · cases hs; exact h.setPP' _ ⟨hc.2, Int.le_refl _, fun c hc => Or.inl hc⟩
      · rename_i hcond; cases hs; exact h.claim' n hc.2 hcond
    · cases hs
  | pstep =>
    have hq := h.prod
    simp only [SRing.step, SRing.pstep] at hs
    split at hs
    · cases hs
    · rename_i n c rest m he; rw [he] at hq; obtain ⟨h1, h2, h3⟩ := hq
      cases hs
      refine h.setPP' _ ⟨h1, by split <;> omega, fun d hd => ?_⟩
      rcases h3 d hd with h5 | h5
      · rcases List.mem_cons.mp h5 with rfl | h5
        · right; split <;> omega
        · exact Or.inl h5
      · right; split <;> omega
    · rename_i n m he; rw [he] at hq; obtain ⟨h1, h2, h3⟩ := hq
      have h3' : ∀ c ∈ s.gating, m ≤ s.seq c := fun c hc => by simpa using h3 c hc
      split at hs
      · cases hs; exact h.setPP' _ ⟨h1, Int.le_refl _, fun c hc => Or.inl hc⟩
      · cases hs
        exact h.claim n m h1 h2 h3' (fun c hc => by have := h3' c hc; omega)
    · rename_i n c rest m he; rw [he] at hq; obtain ⟨h1, h2, h3⟩ := hq
      cases hs
      refine h.setPP' _ ⟨h1, by split <;> omega, fun d hd => ?_⟩
      rcases h3 d hd with h5 | h5
      · rcases List.mem_cons.mp h5 with rfl | h5
        · right; split <;> omega
        · exact Or.inl h5
      · right; split <;> omega
    · rename_i n m he; rw [he] at hq; obtain ⟨h1, h2, h3⟩ := hq
      have h3' : ∀ c ∈ s.gating, m ≤ s.seq c := fun c hc => by simpa using h3 c hc
      split at hs
      · cases hs; exact h.setPP _ m _ trivial h2 h3'
      · cases hs
        exact h.claim n m h1 h2 h3' (fun c hc => by have := h3' c hc; omega)
  | write x v =>
    simp only [SRing.step] at hs
    split at hs
    · rename_i hx
      cases hs
      refine { h with slot_pub := ?_, prod := ?_, cons := ?_ }
      · intro c hc y h1 h2
        simp only at hc h1 h2 ⊢
        rw [h.slot_pub c hc y h1 h2, upd_other]
        intro he
        rw [slotIdx_eq hk, slotIdx_eq hk, idx_eq_iff] at he
        have := h.over c hc
        have := emod_inj hp he (by omega) (by omega)
        omega
      · exact h.prod.mono rfl (fun d hd => Or.inl ⟨hd, Int.le_refl _⟩)
      · exact fun c hc => (h.cons c hc).mono (Int.le_refl _) rfl
    · cases hs
  | publish x =>
    simp only [SRing.step] at hs
    split at hs
    · rename_i hx
      cases hs
      have hge := h.cur_ge
      refine { h with cur_ge := ?_, cur_le := ?_, seq_le := ?_, pub_none := ?_, pub_some := ?_, slot_pub := ?_,
                      prod := ?_, cons := ?_ }
      · simp only; omega
      · exact hx.2
      · intro c hc; have := h.seq_le c hc; simp only; omega
      · intro y hy
        simp only at hy ⊢
        rw [if_neg (by omega)]; exact h.pub_none y (by omega)
      · intro y h0 hy
        simp only at hy ⊢
        split
        · rfl
        · exact h.pub_some y h0 (by omega)
      · intro c hc y h1 h2
        simp only at hc h1 h2 ⊢
        split
        · rfl
        · exact h.slot_pub c hc y h1 (by omega)
      · exact h.prod.mono rfl (fun d hd => Or.inl ⟨hd, Int.le_refl _⟩)
      · exact fun c hc => (h.cons c hc).mono (by simp only; omega) rfl
    · cases hs
  | addGating c =>
    simp only [SRing.step] at hs
    cases hs
    have key : ∀ d ∈ s.gating ++ [c], (d = c ∧ upd s.seq c s.cursor d = s.cursor) ∨
        (d ≠ c ∧ d ∈ s.gating ∧ upd s.seq c s.cursor d = s.seq d) := by
      intro d hd
      by_cases he : d = c
      · subst he; exact Or.inl ⟨rfl, by simp⟩
      · right
        refine ⟨he, by simpa [he] using hd, by simp [he]⟩
    have hok1 := hok.1
    constructor
    · exact h.cur_ge
    · exact h.cur_le
    · intro d hd
      rcases key d hd with ⟨_, h1⟩ | ⟨_, h1, h2⟩
      · simp only [h1]; exact h.cur_ge
      · simp only [h2]; exact h.seq_ge d h1
    · exact h.cached_le
    · intro d hd
      rcases key d hd with ⟨_, h1⟩ | ⟨_, h1, h2⟩
      · simp only [h1]; have := h.cached_le; omega
      · simp only [h2]; exact h.cached_seq d h1
    · intro d hd
      rcases key d hd with ⟨_, h1⟩ | ⟨_, h1, h2⟩
      · simp only [h1]; exact Int.le_refl _
      · simp only [h2]; exact h.seq_le d h1
    · intro d hd
      rcases key d hd with ⟨_, h1⟩ | ⟨_, h1, h2⟩
      · simp only [h1]; omega
      · simp only [h2]; exact h.over d h1
    · exact h.pub_none
    · exact h.pub_some
    · intro d hd x h1 h2
      rcases key d hd with ⟨_, h4⟩ | ⟨_, h4, h5⟩
      · simp only [h4] at h1 h2; omega
      · simp only [h5] at h1; exact h.slot_pub d h4 x h1 h2
    · refine h.prod.mono rfl ?_
      intro d hd
      rcases key d hd with ⟨_, h4⟩ | ⟨_, h4, h5⟩
      · simp only [h4]; exact Or.inr (by omega)
      · simp only [h5]; exact Or.inl ⟨h4, Int.le_refl _⟩
    · intro d hd
      rcases key d hd with ⟨rfl, h4⟩ | ⟨_, h4, h5⟩
      · simp only [hok.2]; trivial
      · exact (h.cons d h4).mono (Int.le_refl _) h5
  | removeGating c =>
    simp only [SRing.step] at hs
    cases hs
    have key : ∀ d ∈ s.gating.filter (fun d => decide (d ≠ c)), d ∈ s.gating := fun d hd => List.mem_of_mem_filter hd
    refine { h with seq_ge := ?_, cached_seq := ?_, seq_le := ?_, over := ?_, slot_pub := ?_, prod := ?_, cons := ?_ }
    · exact fun d hd => h.seq_ge d (key d hd)
    · exact fun d hd => h.cached_seq d (key d hd)
    · exact fun d hd => h.seq_le d (key d hd)
    · exact fun d hd => h.over d (key d hd)
    · exact fun d hd => h.slot_pub d (key d hd)
    · exact h.prod.mono rfl (fun d hd => Or.inl ⟨key d hd, Int.le_refl _⟩)
    · exact fun d hd => (h.cons d (key d hd)).mono (Int.le_refl _) rfl
  | run c =>
    simp only [SRing.step] at hs
    split at hs
    · cases hs; exact h.consumer' c _ _ (fun _ => rfl)
    · cases hs
  | look c =>
    simp only [SRing.step] at hs
    split at hs
    · rename_i nx he
      split at hs
      · cases hs; exact h
      · cases hs
        refine h.consumer' c _ _ (fun hc => ?_)
        have := h.cons c hc
        rw [he] at this
        simp only [CInv] at this ⊢
        omega
    · cases hs
  | advance c =>
    simp only [SRing.step] at hs
    split at hs
    · rename_i nx av he
      split at hs
      · cases hs
        refine h.consumer' c _ _ (fun hc => ?_)
        have := h.cons c hc
        rw [he] at this
        simp only [CInv] at this ⊢
        omega
      · cases hs
        refine h.consumer c av _ _ (fun hc => ?_) (fun hc => ?_)
        · have := h.cons c hc
          rw [he] at this
          simp only [CInv] at this
          omega
        · have := h.cons c hc
          rw [he] at this
          simp only [CInv, upd_same] at this ⊢
          omega
    · cases hs
  | finish c =>
    simp only [SRing.step] at hs
    split at hs
    · rename_i nx av he
      cases hs
      refine h.consumer' c _ _ (fun hc => ?_)
      have := h.cons c hc
      rw [he] at this
      simp only [CInv] at this ⊢
      omega
    · cases hs
  | throw c =>
    simp only [SRing.step] at hs
    split at hs
    · rename_i nx av he
      cases hs
      refine h.consumer c nx _ _ (fun hc => ?_) (fun hc => ?_)
      · have := h.cons c hc
        rw [he] at this
        simp only [CInv] at this
        omega
      · simp [CInv]
    · cases hs
  | leave c =>
    simp only [SRing.step] at hs
    split at hs
    · cases hs; exact h.consumer' c _ _ (fun _ => trivial)
    · cases hs

theorem Reach.inv {k : Nat} (hk : k ≤ 30) {v : V} {s : St V} (h : Reach k v s) : Inv k s := by
  induction h with
  | init => exact Inv.init k v
  | step hr hok hs ih => exact ih.step hk hok hs

/-! ### Deliveries -/

def done (s : St V) (c : Nat) : Int :=
  match s.cp c with
  | .batch nx _ => nx - 1
  | .handle nx _ => nx
  | _ => s.seq c

def LInv (s : St V) (c : Nat) : Prop :=
  ∃ n : Nat, done s c = s.base c + n ∧ (s.dlog c).reverse.map (·.1) = (List.range n).map (fun i : Nat => s.base c + 1 + (i : Int))

theorem LInv.congr {s s' : St V} {c : Nat} (h : LInv s c) (h1 : done s' c = done s c) (h2 : s'.base c = s.base c)
    (h3 : s'.dlog c = s.dlog c) : LInv s' c := by
  obtain ⟨n, a, b⟩ := h
  exact ⟨n, by rw [h1, h2, a], by rw [h3, h2, b]⟩

theorem LInv.step {k : Nat} {s s' : St V} {a : Act V} (hi : Inv k s) (h : ∀ c ∈ s.gating, LInv s c)
    (hok : OkAct s a) (hs : step k s a = some s') : ∀ c ∈ s'.gating, LInv s' c := by
  have same : ∀ (d : Nat) (pc : CPc) (q : Int) (c : Nat), c ∈ s.gating →
      (c = d → done { s with seq := upd s.seq d q, cp := upd s.cp d pc } d = done s d) →
      LInv { s with seq := upd s.seq d q, cp := upd s.cp d pc } c := by
    intro d pc q c hc hd
    refine LInv.congr (h c hc) ?_ rfl rfl
    by_cases he : c = d
    · subst he; exact hd rfl
    · simp [done, he]
  have same' : ∀ (d : Nat) (pc : CPc) (c : Nat), c ∈ s.gating →
      (c = d → done { s with cp := upd s.cp d pc } d = done s d) →
      LInv { s with cp := upd s.cp d pc } c := by
    intro d pc c hc hd
    have := same d pc (s.seq d) c hc
    rw [upd_self] at this
    exact this hd
  cases a with
  | addGating d =>
    simp only [SRing.step] at hs
    cases hs
    intro c hc
    by_cases he : c = d
    · subst he
      refine ⟨0, ?_, by simp⟩
      simp only [done, hok.2, upd_same]; simp
    · have hc' : c ∈ s.gating := by simpa [he] using hc
      apply (h c hc').congr
      · simp [done, he]
      · simp [he]
      · simp [he]
  | removeGating d =>
    simp only [SRing.step] at hs
    cases hs
    intro c hc
    exact (h c (List.mem_of_mem_filter hc)).congr rfl rfl rfl
  | pstep =>
    simp only [SRing.step, SRing.pstep] at hs
    (repeat' split at hs) <;> (try cases hs) <;> exact fun c hc => (h c hc).congr rfl rfl rfl
  | run d =>
    simp only [SRing.step] at hs
    split at hs
    · rename_i hp
      cases hs
      exact fun c hc => same' d _ c hc (fun _ => by simp [done, hp])
    · cases hs
  | look d =>
    simp only [SRing.step] at hs
    split at hs
    · rename_i nx he
      split at hs
      · cases hs; exact h
      · cases hs
        intro c hc
        refine same' d _ c hc (fun hcd => ?_)
        subst hcd
        have := hi.cons c hc
        rw [he] at this
        simp only [CInv] at this
        simp [done, he, this]
    · cases hs
  | advance d =>
    simp only [SRing.step] at hs
    split at hs
    · rename_i nx av he
      split at hs
      · cases hs
        intro c hc
        by_cases hcd : c = d
        · subst hcd
          obtain ⟨n, h1, h2⟩ := h c hc
          simp only [done, he] at h1
          refine ⟨n + 1, ?_, ?_⟩
          · simp only [done, upd_same]; push_cast; omega
          · simp only [upd_same, List.reverse_cons, List.map_append, h2, List.range_succ]
            simp only [List.map_cons, List.map_nil, List.append_cancel_left_eq, List.cons.injEq, and_true]
            omega
        · apply (h c hc).congr
          · simp [done, hcd]
          · rfl
          · simp [hcd]
      · rename_i hn
        cases hs
        intro c hc
        refine same d _ _ c hc (fun hcd => ?_)
        subst hcd
        have := hi.cons c hc
        rw [he] at this
        obtain ⟨a1, a2, a3⟩ := this
        simp only [done, he, upd_same]
        omega
    · cases hs
  | finish d =>
    simp only [SRing.step] at hs
    split at hs
    · rename_i nx av he
      cases hs
      exact fun c hc => same' d _ c hc (fun _ => by simp [done, he])
    · cases hs
  | throw d =>
    simp only [SRing.step] at hs
    split at hs
    · rename_i nx av he
      cases hs
      exact fun c hc => same d _ _ c hc (fun _ => by simp [done, he])
    · cases hs
  | leave d =>
    simp only [SRing.step] at hs
    split at hs
    · rename_i nx he
      cases hs
      exact fun c hc => same' d _ c hc (fun _ => by simp [done, he])
    · cases hs
  | _ =>
    simp only [SRing.step] at hs
    (repeat' split at hs) <;> (try cases hs) <;> exact fun c hc => (h c hc).congr rfl rfl rfl

theorem Reach.logs {k : Nat} (hk : k ≤ 30) {v : V} {s : St V} (h : Reach k v s) : ∀ c ∈ s.gating, LInv s c := by
  induction h with
  | init => intro c hc; simp [St.init] at hc
  | step hr hok hs ih => exact LInv.step (hr.inv hk) ih hok hs

end Verif.SRing
