import Verif.Model.MultiRing
import Verif.Lemmas.Sequencer

/-! Invariant of the multi producer ring. -/

namespace Verif.MRing
open Verif Verif.Disr

variable {V : Type}

/-- The restrictions under which the ring is safe: a gating sequence is added only while no claimed sequence is unpublished and
its processor is not running; `try_next` is called only while the cursor is below 2^31. -/
def OkAct (s : St V) : Act V → Prop
  | .addGating c => (∀ x, s.owner x = none) ∧ s.cp c = .idle
  | .pstep p => ∀ n cur, s.pp p = .tCache n cur → cur + n < 2 ^ 31
  | _ => True

/-- States reachable under these restrictions. -/
inductive Reach (k : Nat) (v : V) : St V → Prop where
  | init : Reach k v (St.init v)
  | step {s s' a} : Reach k v s → OkAct s a → step k s a = some s' → Reach k v s'

def PInv (k : Nat) (s : St V) : PPc → Prop
  | .idle => True
  | .nLoad n => 1 ≤ n
  | .tLoad n => 1 ≤ n
  | .nCache n cur => 1 ≤ n ∧ -1 ≤ cur ∧ cur ≤ s.cursor
  | .tCache n cur => 1 ≤ n ∧ -1 ≤ cur ∧ cur ≤ s.cursor
  | .nScan n cur rest m => 1 ≤ n ∧ cur ≤ s.cursor ∧ m ≤ cur ∧ ∀ c ∈ s.gating, c ∈ rest ∨ m ≤ s.seq c
  | .tScan n cur rest m => 1 ≤ n ∧ -1 ≤ cur ∧ cur + n < 2 ^ 31 ∧ cur ≤ s.cursor ∧ m ≤ cur ∧
      ∀ c ∈ s.gating, c ∈ rest ∨ m ≤ s.seq c
  | .nSet n m => 1 ≤ n ∧ m ≤ s.cursor ∧ ∀ c ∈ s.gating, m ≤ s.seq c
  | .tSet n cur m => 1 ≤ n ∧ -1 ≤ cur ∧ cur + n < 2 ^ 31 ∧ cur ≤ s.cursor ∧ m ≤ cur ∧ ∀ c ∈ s.gating, m ≤ s.seq c
  | .nCas n cur => 1 ≤ n ∧ cur ≤ s.cursor ∧ n ≤ 2 ^ k ∧ ∀ c ∈ s.gating, cur + n - 2 ^ k ≤ s.seq c
  | .tCas n cur => 1 ≤ n ∧ cur ≤ s.cursor ∧ n ≤ 2 ^ k ∧ ∀ c ∈ s.gating, cur + n - 2 ^ k ≤ s.seq c

def CInv (s : St V) (c : Nat) : CPc → Prop
  | .idle => True
  | .wait nx => nx = s.seq c + 1
  | .scan nx hi i => nx = s.seq c + 1 ∧ nx ≤ i ∧ i ≤ hi + 1 ∧ hi ≤ s.cursor ∧ ∀ x, nx ≤ x → x < i → s.owner x = none
  | .batch nx av => s.seq c < nx ∧ nx ≤ av + 1 ∧ av ≤ s.cursor ∧ ∀ x, s.seq c < x → x ≤ av → s.owner x = none
  | .handle nx av => s.seq c < nx ∧ nx ≤ av ∧ av ≤ s.cursor ∧ ∀ x, s.seq c < x → x ≤ av → s.owner x = none

structure Inv (k : Nat) (s : St V) : Prop where
  cur_ge : -1 ≤ s.cursor
  seq_ge : ∀ c ∈ s.gating, -1 ≤ s.seq c
  cache_le : s.cache ≤ s.cursor
  cache_seq : ∀ c ∈ s.gating, s.cache ≤ s.seq c
  seq_le : ∀ c ∈ s.gating, s.seq c ≤ s.cursor
  over : ∀ c ∈ s.gating, s.cursor ≤ s.seq c + 2 ^ k
  own_rng : ∀ x p, s.owner x = some p → 0 ≤ x ∧ x ≤ s.cursor
  own_gt : ∀ x p, s.owner x = some p → ∀ c ∈ s.gating, s.seq c < x
  pub_none : ∀ x, s.cursor < x → s.pub x = none
  pub_own : ∀ x p, s.owner x = some p → s.pub x = none
  pub_some : ∀ x, 0 ≤ x → x ≤ s.cursor → s.owner x = none → (s.pub x).isSome
  flags : ∀ j, s.avail j = -1 ∨
    ∃ x, 0 ≤ x ∧ x ≤ s.cursor ∧ s.owner x = none ∧ availIdx k x = j ∧ s.avail j = availFlag k x
  flag_set : ∀ c ∈ s.gating, ∀ x, s.seq c < x → x ≤ s.cursor → s.owner x = none → s.avail (availIdx k x) = availFlag k x
  slot_pub : ∀ c ∈ s.gating, ∀ x, s.seq c < x → x ≤ s.cursor → s.owner x = none → s.pub x = some (s.slot (slotIdx k x))
  prod : ∀ p, PInv k s (s.pp p)
  cons : ∀ c ∈ s.gating, CInv s c (s.cp c)

theorem Inv.init (k : Nat) (v : V) : Inv k (St.init v) := by
  constructor <;> simp [St.init, PInv]
  intros; omega

theorem PInv.mono {k : Nat} {s s' : St V} {pc : PPc} (h : PInv k s pc) (hc : s.cursor ≤ s'.cursor)
    (hg : ∀ c ∈ s'.gating, (c ∈ s.gating ∧ s.seq c ≤ s'.seq c) ∨ s.cursor ≤ s'.seq c) : PInv k s' pc := by
  cases pc with
  | idle => trivial
  | nLoad n => exact h
  | tLoad n => exact h
  | nCache n cur => obtain ⟨a, b, c⟩ := h; exact ⟨a, b, by omega⟩
  | tCache n cur => obtain ⟨a, b, c⟩ := h; exact ⟨a, b, by omega⟩
  | nScan n cur rest m =>
    obtain ⟨a, b, c, d⟩ := h
    refine ⟨a, by omega, c, fun c hc' => ?_⟩
    rcases hg c hc' with ⟨h1, h2⟩ | h1
    · rcases d c h1 with h3 | h3
      · exact Or.inl h3
      · exact Or.inr (by omega)
    · exact Or.inr (by omega)
  | tScan n cur rest m =>
    obtain ⟨a, a', a'', b, c, d⟩ := h
    refine ⟨a, a', a'', by omega, c, fun c hc' => ?_⟩
    rcases hg c hc' with ⟨h1, h2⟩ | h1
    · rcases d c h1 with h3 | h3
      · exact Or.inl h3
      · exact Or.inr (by omega)
    · exact Or.inr (by omega)
  | nSet n m =>
    obtain ⟨a, b, d⟩ := h
    refine ⟨a, by omega, fun c hc' => ?_⟩
    rcases hg c hc' with ⟨h1, h2⟩ | h1
    · have := d c h1; omega
    · omega
  | tSet n cur m =>
    obtain ⟨a, a', a'', b, b', d⟩ := h
    refine ⟨a, a', a'', by omega, b', fun c hc' => ?_⟩
    rcases hg c hc' with ⟨h1, h2⟩ | h1
    · have := d c h1; omega
    · omega
  | nCas n cur =>
    obtain ⟨a, b, b', d⟩ := h
    refine ⟨a, by omega, b', fun c hc' => ?_⟩
    rcases hg c hc' with ⟨h1, h2⟩ | h1
    · have := d c h1; omega
    · omega
  | tCas n cur =>
    obtain ⟨a, b, b', d⟩ := h
    refine ⟨a, by omega, b', fun c hc' => ?_⟩
    rcases hg c hc' with ⟨h1, h2⟩ | h1
    · have := d c h1; omega
    · omega

theorem CInv.mono {s s' : St V} {c : Nat} {pc : CPc} (h : CInv s c pc) (hc : s.cursor ≤ s'.cursor)
    (hs : s'.seq c = s.seq c) (ho : ∀ x, x ≤ s.cursor → s.owner x = none → s'.owner x = none) : CInv s' c pc := by
  cases pc with
  | idle => trivial
  | wait nx => simp only [CInv] at h ⊢; omega
  | scan nx hi i =>
    obtain ⟨a, b, b', d, e⟩ := h
    exact ⟨by omega, b, b', by omega, fun x h1 h2 => ho x (by omega) (e x h1 h2)⟩
  | batch nx av =>
    obtain ⟨a, b, d, e⟩ := h
    exact ⟨by omega, b, by omega, fun x h1 h2 => ho x (by omega) (e x (by omega) h2)⟩
  | handle nx av =>
    obtain ⟨a, b, d, e⟩ := h
    exact ⟨by omega, b, by omega, fun x h1 h2 => ho x (by omega) (e x (by omega) h2)⟩

/-- Change of a producer's program counter only. -/
theorem Inv.setPP {k : Nat} {s : St V} (h : Inv k s) (p : Nat) (pc : PPc) (hp : PInv k s pc) :
    Inv k { s with pp := upd s.pp p pc } := by
  refine { h with prod := fun q => ?_, cons := ?_ }
  · simp only [upd_apply]
    have : ∀ r, PInv k s r → PInv k { s with pp := upd s.pp p pc } r := fun r hr =>
      hr.mono (Int.le_refl _) (fun c hc => Or.inl ⟨hc, Int.le_refl _⟩)
    split
    · exact this _ hp
    · exact this _ (h.prod q)
  · exact fun c hc => (h.cons c hc).mono (Int.le_refl _) rfl (fun _ _ h => h)

theorem Inv.setCache {k : Nat} {s : St V} (h : Inv k s) (p : Nat) (pc : PPc) (m : Int) (hp : PInv k s pc)
    (h1 : m ≤ s.cursor) (h2 : ∀ c ∈ s.gating, m ≤ s.seq c) : Inv k { s with cache := m, pp := upd s.pp p pc } := by
  have h' := h.setPP p pc hp
  refine { h' with cache_le := h1, cache_seq := h2, prod := fun q => ?_, cons := ?_ }
  · exact (h'.prod q).mono (Int.le_refl _) (fun c hc => Or.inl ⟨hc, Int.le_refl _⟩)
  · exact fun c hc => (h'.cons c hc).mono (Int.le_refl _) rfl (fun _ _ h => h)

theorem emod_of_idx {k : Nat} (hk : k ≤ 30) {x y : Int} (h : availIdx k x = availIdx k y) : x % 2 ^ k = y % 2 ^ k := by
  rw [availIdx_eq hk, availIdx_eq hk, idx_eq_iff] at h; exact h

theorem emod_of_sidx {k : Nat} (hk : k ≤ 30) {x y : Int} (h : slotIdx k x = slotIdx k y) : x % 2 ^ k = y % 2 ^ k := by
  rw [slotIdx_eq hk, slotIdx_eq hk, idx_eq_iff] at h; exact h

theorem pow_pos' (k : Nat) : (0 : Int) < 2 ^ k := by positivity

theorem Inv.claim {k : Nat} {s : St V} (h : Inv k s) (p : Nat) (n : Int)
    (hn : 1 ≤ n) (hg : ∀ c ∈ s.gating, s.cursor + n - 2 ^ k ≤ s.seq c) : Inv k (claim s p s.cursor n) := by
  have hc := h.cur_ge
  constructor
  · simp only [MRing.claim]; omega
  · exact h.seq_ge
  · have := h.cache_le; simp only [MRing.claim]; omega
  · exact h.cache_seq
  · intro c hc'; have := h.seq_le c hc'; simp only [MRing.claim]; omega
  · intro c hc'; have := hg c hc'; simp only [MRing.claim]; omega
  · intro x q hx
    simp only [MRing.claim] at hx ⊢
    split at hx
    · omega
    · have := h.own_rng x q hx; omega
  · intro x q hx c hc'
    simp only [MRing.claim] at hx hc' ⊢
    split at hx
    · have := h.seq_le c hc'; omega
    · exact h.own_gt x q hx c hc'
  · intro x hx
    simp only [MRing.claim] at hx ⊢
    exact h.pub_none x (by omega)
  · intro x q hx
    simp only [MRing.claim] at hx ⊢
    split at hx
    · exact h.pub_none x (by omega)
    · exact h.pub_own x q hx
  · intro x h0 hx ho
    simp only [MRing.claim] at hx ho ⊢
    split at ho
    · simp at ho
    · exact h.pub_some x h0 (by omega) ho
  · intro j
    simp only [MRing.claim]
    rcases h.flags j with h1 | ⟨x, h1, h2, h3, h4, h5⟩
    · exact Or.inl h1
    · refine Or.inr ⟨x, h1, by omega, ?_, h4, h5⟩
      rw [if_neg (by omega)]; exact h3
  · intro c hc' x h1 h2 h3
    simp only [MRing.claim] at hc' h1 h2 h3 ⊢
    split at h3
    · simp at h3
    · exact h.flag_set c hc' x h1 (by omega) h3
  · intro c hc' x h1 h2 h3
    simp only [MRing.claim] at hc' h1 h2 h3 ⊢
    split at h3
    · simp at h3
    · exact h.slot_pub c hc' x h1 (by omega) h3
  · intro q
    have hq : PInv k s (upd s.pp p .idle q) := by
      rw [upd_apply]; split
      · trivial
      · exact h.prod q
    exact hq.mono (by simp only [MRing.claim]; omega) (fun c hc => Or.inl ⟨hc, Int.le_refl _⟩)
  · intro c hc'
    refine (h.cons c hc').mono (by simp only [MRing.claim]; omega) rfl ?_
    intro x hx ho
    simp only [MRing.claim]
    rw [if_neg (by omega)]; exact ho

theorem Inv.pstep {k : Nat} (hk : k ≤ 30) {s s' : St V} (h : Inv k s) (p : Nat) (hok : OkAct s (.pstep p : Act V))
    (hs : pstep (2 ^ k) s p = some s') : Inv k s' := by
  have hp := h.prod p
  unfold MRing.pstep at hs
  split at hs
  · cases hs
  · rename_i n he; rw [he] at hp; cases hs
    exact h.setPP _ _ ⟨hp, h.cur_ge, Int.le_refl _⟩
  · rename_i n cur he; rw [he] at hp; obtain ⟨h1, h2, h3⟩ := hp
    split at hs
    · cases hs
      exact h.setPP _ _ ⟨h1, h3, Int.le_refl _, fun c hc => Or.inl hc⟩
    · rename_i hcond
      cases hs
      refine h.setPP _ _ ⟨h1, h3, by omega, fun c hc => ?_⟩
      have := h.cache_seq c hc
      omega
  · rename_i n cur m he; rw [he] at hp; obtain ⟨h1, h2, h3, h4⟩ := hp
    split at hs
    · cases hs; exact h.setPP _ _ h1
    · cases hs
      refine h.setPP _ _ ⟨h1, by omega, fun c hc => ?_⟩
      rcases h4 c hc with h5 | h5
      · simp at h5
      · exact h5
  · rename_i n cur c rest m he; rw [he] at hp; obtain ⟨h1, h2, h3, h4⟩ := hp
    cases hs
    refine h.setPP _ _ ⟨h1, h2, by split <;> omega, fun d hd => ?_⟩
    rcases h4 d hd with h5 | h5
    · rcases List.mem_cons.mp h5 with rfl | h5
      · right; split <;> omega
      · exact Or.inl h5
    · right; split <;> omega
  · rename_i n m he; rw [he] at hp; obtain ⟨h1, h2, h3⟩ := hp
    cases hs
    exact h.setCache p _ m h1 h2 h3
  · rename_i n cur he; rw [he] at hp; obtain ⟨h1, h2, h3, h4⟩ := hp
    split at hs
    · rename_i hc; cases hs; subst hc
      exact h.claim p n h1 h4
    · cases hs; exact h.setPP _ _ h1
  · rename_i n he; rw [he] at hp; cases hs
    exact h.setPP _ _ ⟨hp, h.cur_ge, Int.le_refl _⟩
  · rename_i n cur he; rw [he] at hp; obtain ⟨h1, h2, h3⟩ := hp
    have hb := hok n cur he
    have e1 : toInt32 cur = cur := toInt32_small (by omega) (by omega)
    have e2 : toInt32 (cur + n) = cur + n := toInt32_small (by omega) (by omega)
    rw [e1, e2] at hs
    split at hs
    · cases hs
      exact h.setPP _ _ ⟨h1, h2, hb, h3, Int.le_refl _, fun c hc => Or.inl hc⟩
    · rename_i hcond
      cases hs
      refine h.setPP _ _ ⟨h1, h3, by omega, fun c hc => ?_⟩
      have := h.cache_seq c hc
      omega
  · rename_i n cur m he; rw [he] at hp; obtain ⟨h1, h2, h3, h4, h5, h6⟩ := hp
    cases hs
    refine h.setPP _ _ ⟨h1, h2, h3, h4, h5, fun c hc => ?_⟩
    rcases h6 c hc with h7 | h7
    · simp at h7
    · exact h7
  · rename_i n cur c rest m he; rw [he] at hp; obtain ⟨h1, h2, h3, h4, h5, h6⟩ := hp
    cases hs
    refine h.setPP _ _ ⟨h1, h2, h3, h4, by split <;> omega, fun d hd => ?_⟩
    rcases h6 d hd with h7 | h7
    · rcases List.mem_cons.mp h7 with rfl | h7
      · right; split <;> omega
      · exact Or.inl h7
    · right; split <;> omega
  · rename_i n cur m he; rw [he] at hp; obtain ⟨h1, h2, h3, h4, h5, h6⟩ := hp
    have e1 : toInt32 cur = cur := toInt32_small (by omega) (by omega)
    have e2 : toInt32 (cur + n) = cur + n := toInt32_small (by omega) (by omega)
    rw [e1, e2] at hs
    split at hs
    · cases hs; exact h.setCache p _ m trivial (by omega) h6
    · rename_i hcond
      cases hs
      refine h.setCache p _ m ⟨h1, h4, by omega, fun c hc => ?_⟩ (by omega) h6
      have := h6 c hc
      omega
  · rename_i n cur he; rw [he] at hp; obtain ⟨h1, h2, h3, h4⟩ := hp
    split at hs
    · rename_i hc; cases hs; subst hc
      exact h.claim p n h1 h4
    · cases hs; exact h.setPP _ _ h1

/-- Two sequences of one slot beyond a gating processor are equal. -/
theorem Inv.uniq {k : Nat} {s : St V} (h : Inv k s) {c : Nat} (hc : c ∈ s.gating) {x y : Int}
    (hx : s.seq c < x) (hx' : x ≤ s.cursor) (hy : s.seq c < y) (hy' : y ≤ s.cursor) (he : x % 2 ^ k = y % 2 ^ k) :
    x = y := by
  have := h.over c hc
  exact emod_inj (pow_pos' k) he (by omega) (by omega)

theorem Inv.write {k : Nat} (hk : k ≤ 30) {s : St V} (h : Inv k s) (p : Nat) (x : Int) (v : V)
    (ho : s.owner x = some p) : Inv k { s with slot := upd s.slot (slotIdx k x) v } := by
  refine { h with slot_pub := ?_, prod := ?_, cons := ?_ }
  · intro c hc y h1 h2 h3
    simp only at hc h1 h2 h3 ⊢
    rw [h.slot_pub c hc y h1 h2 h3, upd_other]
    intro he
    have := h.uniq hc h1 h2 (h.own_gt x p ho c hc) (h.own_rng x p ho).2 (emod_of_sidx hk he)
    subst this; rw [ho] at h3; simp at h3
  · exact fun q => (h.prod q).mono (Int.le_refl _) (fun c hc => Or.inl ⟨hc, Int.le_refl _⟩)
  · exact fun c hc => (h.cons c hc).mono (Int.le_refl _) rfl (fun _ _ h => h)

theorem Inv.publish {k : Nat} (hk : k ≤ 30) {s : St V} (h : Inv k s) (p : Nat) (x : Int) (ho : s.owner x = some p) :
    Inv k { s with
      avail := upd s.avail (availIdx k x) (availFlag k x)
      owner := upd s.owner x none
      pub := upd s.pub x (some (s.slot (slotIdx k x))) } := by
  have hx := h.own_rng x p ho
  have ho' : ∀ y, upd s.owner x none y = none ↔ (y = x ∨ s.owner y = none) := by
    intro y; rw [upd_apply]; split <;> simp_all
  have ho'' : ∀ y q, upd s.owner x none y = some q → y ≠ x ∧ s.owner y = some q := by
    intro y q; rw [upd_apply]; split <;> simp_all
  refine { h with own_rng := ?_, own_gt := ?_, pub_none := ?_, pub_own := ?_, pub_some := ?_, flags := ?_,
                  flag_set := ?_, slot_pub := ?_, prod := ?_, cons := ?_ }
  · intro y q hy; exact h.own_rng y q (ho'' y q hy).2
  · intro y q hy; exact h.own_gt y q (ho'' y q hy).2
  · intro y hy
    simp only at hy ⊢
    rw [upd_other _ _ (by omega)]; exact h.pub_none y hy
  · intro y q hy
    obtain ⟨h1, h2⟩ := ho'' y q hy
    simp only [upd_other _ _ h1]; exact h.pub_own y q h2
  · intro y h0 h1 h2
    simp only [upd_apply]
    split
    · simp
    · rename_i hne
      rcases (ho' y).mp h2 with h3 | h3
      · exact absurd h3 hne
      · exact h.pub_some y h0 h1 h3
  · intro j
    simp only [upd_apply]
    split
    · rename_i hj; exact Or.inr ⟨x, hx.1, hx.2, by simp, hj.symm, rfl⟩
    · rcases h.flags j with h1 | ⟨y, h1, h2, h3, h4, h5⟩
      · exact Or.inl h1
      · exact Or.inr ⟨y, h1, h2, by split <;> simp [h3], h4, h5⟩
  · intro c hc y h1 h2 h3
    simp only at hc h1 h2 h3 ⊢
    rcases (ho' y).mp h3 with rfl | h3
    · simp
    · rw [upd_other, h.flag_set c hc y h1 h2 h3]
      intro he
      have := h.uniq hc h1 h2 (h.own_gt x p ho c hc) hx.2 (emod_of_idx hk he)
      subst this; simp_all
  · intro c hc y h1 h2 h3
    simp only at hc h1 h2 h3 ⊢
    rcases (ho' y).mp h3 with rfl | h3
    · simp
    · rw [upd_other, h.slot_pub c hc y h1 h2 h3]
      rintro rfl
      simp_all
  · exact fun q => (h.prod q).mono (Int.le_refl _) (fun c hc => Or.inl ⟨hc, Int.le_refl _⟩)
  · intro c hc
    refine (h.cons c hc).mono (Int.le_refl _) rfl ?_
    intro y _ hy
    exact (ho' y).mpr (Or.inr hy)

theorem Inv.addGating {k : Nat} {s : St V} (h : Inv k s) (c : Nat) (ho : ∀ x, s.owner x = none) (hc : s.cp c = .idle) :
    Inv k { s with
      seq := upd s.seq c s.cursor
      gating := s.gating ++ [c]
      dlog := upd s.dlog c []
      base := upd s.base c s.cursor } := by
  have key : ∀ d ∈ s.gating ++ [c], (d = c ∧ upd s.seq c s.cursor d = s.cursor) ∨
      (d ≠ c ∧ d ∈ s.gating ∧ upd s.seq c s.cursor d = s.seq d) := by
    intro d hd
    by_cases he : d = c
    · subst he; exact Or.inl ⟨rfl, by simp⟩
    · right
      refine ⟨he, by simpa [he] using hd, by simp [he]⟩
  have hp := pow_pos' k
  constructor
  · exact h.cur_ge
  · intro d hd
    rcases key d hd with ⟨_, h1⟩ | ⟨_, h1, h2⟩
    · simp only [h1]; exact h.cur_ge
    · simp only [h2]; exact h.seq_ge d h1
  · exact h.cache_le
  · intro d hd
    rcases key d hd with ⟨_, h1⟩ | ⟨_, h1, h2⟩
    · simp only [h1]; exact h.cache_le
    · simp only [h2]; exact h.cache_seq d h1
  · intro d hd
    rcases key d hd with ⟨_, h1⟩ | ⟨_, h1, h2⟩
    · simp only [h1]; exact Int.le_refl _
    · simp only [h2]; exact h.seq_le d h1
  · intro d hd
    rcases key d hd with ⟨_, h1⟩ | ⟨_, h1, h2⟩
    · simp only [h1]; omega
    · simp only [h2]; exact h.over d h1
  · exact h.own_rng
  · intro x p hx; rw [ho x] at hx; simp at hx
  · exact h.pub_none
  · exact h.pub_own
  · exact h.pub_some
  · exact h.flags
  · intro d hd x h1 h2 h3
    rcases key d hd with ⟨_, h4⟩ | ⟨_, h4, h5⟩
    · simp only [h4] at h1 h2; omega
    · simp only [h5] at h1; exact h.flag_set d h4 x h1 h2 h3
  · intro d hd x h1 h2 h3
    rcases key d hd with ⟨_, h4⟩ | ⟨_, h4, h5⟩
    · simp only [h4] at h1 h2; omega
    · simp only [h5] at h1; exact h.slot_pub d h4 x h1 h2 h3
  · intro q
    refine (h.prod q).mono (Int.le_refl _) ?_
    intro d hd
    rcases key d hd with ⟨_, h4⟩ | ⟨_, h4, h5⟩
    · simp only [h4]; exact Or.inr (Int.le_refl _)
    · simp only [h5]; exact Or.inl ⟨h4, Int.le_refl _⟩
  · intro d hd
    rcases key d hd with ⟨rfl, h4⟩ | ⟨_, h4, h5⟩
    · simp only [hc]; trivial
    · exact (h.cons d h4).mono (Int.le_refl _) h5 (fun _ _ h => h)

theorem Inv.removeGating {k : Nat} {s : St V} (h : Inv k s) (c : Nat) :
    Inv k { s with gating := s.gating.filter (fun d => decide (d ≠ c)) } := by
  have key : ∀ d ∈ s.gating.filter (fun d => decide (d ≠ c)), d ∈ s.gating := fun d hd => List.mem_of_mem_filter hd
  refine { h with seq_ge := ?_, cache_seq := ?_, seq_le := ?_, over := ?_, own_gt := ?_, flag_set := ?_, slot_pub := ?_,
                  prod := ?_, cons := ?_ }
  · exact fun d hd => h.seq_ge d (key d hd)
  · exact fun d hd => h.cache_seq d (key d hd)
  · exact fun d hd => h.seq_le d (key d hd)
  · exact fun d hd => h.over d (key d hd)
  · exact fun x p hx d hd => h.own_gt x p hx d (key d hd)
  · exact fun d hd => h.flag_set d (key d hd)
  · exact fun d hd => h.slot_pub d (key d hd)
  · exact fun q => (h.prod q).mono (Int.le_refl _) (fun d hd => Or.inl ⟨key d hd, Int.le_refl _⟩)
  · exact fun d hd => (h.cons d (key d hd)).mono (Int.le_refl _) rfl (fun _ _ h => h)

/-- A step of processor `c` that raises its sequence (or leaves it) within the published prefix. -/
theorem Inv.consumer {k : Nat} {s : St V} (h : Inv k s) (c : Nat) (q : Int) (pc : CPc) (dl : Nat → List (Int × Bool))
    (h1 : c ∈ s.gating → s.seq c ≤ q ∧ q ≤ s.cursor ∧ ∀ x, s.seq c < x → x ≤ q → s.owner x = none)
    (h2 : c ∈ s.gating → CInv { s with seq := upd s.seq c q } c pc) :
    Inv k { s with seq := upd s.seq c q, cp := upd s.cp c pc, dlog := dl } := by
  have key : ∀ d ∈ s.gating, s.seq d ≤ upd s.seq c q d ∧ upd s.seq c q d ≤ s.cursor ∧
      ∀ x, s.seq d < x → x ≤ upd s.seq c q d → s.owner x = none := by
    intro d hd
    rw [upd_apply]
    split
    · rename_i he; subst he; exact h1 hd
    · exact ⟨Int.le_refl _, h.seq_le d hd, fun x a b => by omega⟩
  refine { h with seq_ge := ?_, cache_seq := ?_, seq_le := ?_, over := ?_, own_gt := ?_, flag_set := ?_, slot_pub := ?_,
                  prod := ?_, cons := ?_ }
  · intro d hd; have := h.seq_ge d hd; have := (key d hd).1; simp only; omega
  · intro d hd; have := h.cache_seq d hd; have := (key d hd).1; simp only; omega
  · intro d hd; exact (key d hd).2.1
  · intro d hd; have := h.over d hd; have := (key d hd).1; simp only; omega
  · intro x p hx d hd
    simp only at hx hd ⊢
    have a := h.own_gt x p hx d hd
    by_contra hlt
    have := (key d hd).2.2 x a (by omega)
    rw [this] at hx; simp at hx
  · intro d hd x a b o
    have := (key d hd).1
    exact h.flag_set d hd x (by simp only at a; omega) b o
  · intro d hd x a b o
    have := (key d hd).1
    exact h.slot_pub d hd x (by simp only at a; omega) b o
  · exact fun r => (h.prod r).mono (Int.le_refl _) (fun d hd => Or.inl ⟨hd, (key d hd).1⟩)
  · intro d hd
    by_cases he : d = c
    · subst he
      simp only [upd_same]
      exact (h2 hd).mono (Int.le_refl _) rfl (fun _ _ h => h)
    · simp only [upd_other _ _ he]
      exact (h.cons d hd).mono (Int.le_refl _) (upd_other _ _ he) (fun _ _ h => h)

theorem upd_self {α β : Type} [DecidableEq α] (f : α → β) (a : α) : upd f a (f a) = f := by
  funext x; rw [upd_apply]; split <;> simp_all

/-- A step of processor `c` that does not change its sequence. -/
theorem Inv.consumer' {k : Nat} {s : St V} (h : Inv k s) (c : Nat) (pc : CPc) (dl : Nat → List (Int × Bool))
    (h2 : c ∈ s.gating → CInv s c pc) :
    Inv k { s with cp := upd s.cp c pc, dlog := dl } := by
  have := h.consumer c (s.seq c) pc dl
    (fun hc => ⟨Int.le_refl _, h.seq_le c hc, fun x a b => by omega⟩)
    (by rw [upd_self]; exact h2)
  rw [upd_self] at this
  exact this

/-- A flag tells that the sequence is published. -/
theorem Inv.flagged {k : Nat} (hk : k ≤ 30) {s : St V} (h : Inv k s) (hlim : s.cursor < (2 ^ 32 - 1) * 2 ^ k) {x : Int}
    (h0 : 0 ≤ x) (h1 : x ≤ s.cursor) (hf : s.avail (availIdx k x) = availFlag k x) : s.owner x = none := by
  rcases h.flags (availIdx k x) with h2 | ⟨y, h2, h3, h4, h5, h6⟩
  · rw [h2] at hf
    exact absurd hf.symm (flag_ne_init hk h0 (by omega))
  · have := flag_inj hk h2 h0 (by omega) (by omega) (emod_of_idx hk h5) (h6.symm.trans hf)
    subst this; exact h4

theorem Inv.step {k : Nat} (hk : k ≤ 30) {s s' : St V} {a : Act V} (h : Inv k s) (hlim : s.cursor < (2 ^ 32 - 1) * 2 ^ k)
    (hok : OkAct s a) (hs : step k s a = some s') : Inv k s' := by
  cases a with
  | callNext p n =>
    simp only [MRing.step] at hs
    split at hs
    · rename_i hc; cases hs; exact h.setPP _ _ hc.2
    · cases hs
  | callTry p n =>
    simp only [MRing.step] at hs
    split at hs
    · rename_i hc; cases hs; exact h.setPP _ _ hc.2
    · cases hs
  | pstep p => exact h.pstep hk p hok hs
  | weak p =>
    have hp := h.prod p
    simp only [MRing.step, MRing.weak] at hs
    split at hs
    · rename_i he; rw [he] at hp; cases hs; exact h.setPP _ _ hp.1
    · rename_i he; rw [he] at hp; cases hs; exact h.setPP _ _ hp.1
    · cases hs
  | write p x v =>
    simp only [MRing.step] at hs
    split at hs
    · rename_i hc; cases hs; exact h.write hk p x v hc
    · cases hs
  | publish p x =>
    simp only [MRing.step] at hs
    split at hs
    · rename_i hc; cases hs; exact h.publish hk p x hc
    · cases hs
  | addGating c =>
    simp only [MRing.step] at hs
    cases hs; exact h.addGating c hok.1 hok.2
  | removeGating c =>
    simp only [MRing.step] at hs
    cases hs; exact h.removeGating c
  | run c =>
    simp only [MRing.step] at hs
    split at hs
    · cases hs; exact h.consumer' c _ _ (fun _ => rfl)
    · cases hs
  | look c =>
    simp only [MRing.step] at hs
    split at hs
    · rename_i nx he
      split at hs
      · cases hs; exact h
      · cases hs
        refine h.consumer' c _ _ (fun hc => ?_)
        have := h.cons c hc
        rw [he] at this
        exact ⟨this, Int.le_refl _, by omega, Int.le_refl _, fun x a b => by omega⟩
    · cases hs
  | scan c =>
    simp only [MRing.step] at hs
    split at hs
    · rename_i nx hi i he
      split at hs
      · split at hs
        · rename_i hf
          cases hs
          refine h.consumer' c _ _ (fun hc => ?_)
          have := h.cons c hc
          rw [he] at this
          obtain ⟨h1, h2, h3, h4, h5⟩ := this
          refine ⟨h1, by omega, by omega, h4, fun x a b => ?_⟩
          by_cases hx : x < i
          · exact h5 x a hx
          · have : x = i := by omega
            subst this
            have := h.seq_ge c hc
            exact h.flagged hk hlim (by omega) (by omega) hf
        · cases hs
          refine h.consumer' c _ _ (fun hc => ?_)
          have := h.cons c hc
          rw [he] at this
          obtain ⟨h1, h2, h3, h4, h5⟩ := this
          exact ⟨by omega, by omega, by omega, fun x a b => h5 x (by omega) (by omega)⟩
      · cases hs
        refine h.consumer' c _ _ (fun hc => ?_)
        have := h.cons c hc
        rw [he] at this
        obtain ⟨h1, h2, h3, h4, h5⟩ := this
        exact ⟨by omega, by omega, by omega, fun x a b => h5 x (by omega) (by omega)⟩
    · cases hs
  | advance c =>
    simp only [MRing.step] at hs
    split at hs
    · rename_i nx av he
      split at hs
      · cases hs
        refine h.consumer' c _ _ (fun hc => ?_)
        have := h.cons c hc
        rw [he] at this
        obtain ⟨h1, h2, h3, h4⟩ := this
        exact ⟨by omega, by omega, by omega, h4⟩
      · cases hs
        refine h.consumer c av _ _ (fun hc => ?_) (fun hc => ?_)
        · have := h.cons c hc
          rw [he] at this
          obtain ⟨h1, h2, h3, h4⟩ := this
          exact ⟨by omega, h3, h4⟩
        · have := h.cons c hc
          rw [he] at this
          obtain ⟨h1, h2, h3, h4⟩ := this
          simp only [CInv, upd_same]; omega
    · cases hs
  | finish c =>
    simp only [MRing.step] at hs
    split at hs
    · rename_i nx av he
      cases hs
      refine h.consumer' c _ _ (fun hc => ?_)
      have := h.cons c hc
      rw [he] at this
      obtain ⟨h1, h2, h3, h4⟩ := this
      exact ⟨by omega, by omega, by omega, h4⟩
    · cases hs
  | throw c =>
    simp only [MRing.step] at hs
    split at hs
    · rename_i nx av he
      cases hs
      refine h.consumer c nx _ _ (fun hc => ?_) (fun hc => ?_)
      · have := h.cons c hc
        rw [he] at this
        obtain ⟨h1, h2, h3, h4⟩ := this
        exact ⟨by omega, by omega, fun x a b => h4 x a (by omega)⟩
      · simp [CInv]
    · cases hs
  | leave c =>
    simp only [MRing.step] at hs
    split at hs
    · cases hs; exact h.consumer' c _ _ (fun _ => trivial)
    · cases hs

/-- The argument of a call in progress. -/
def PPc.arg : PPc → Int
  | .idle => 1
  | .nLoad n | .nCache n _ | .nScan n _ _ _ | .nSet n _ | .nCas n _ => n
  | .tLoad n | .tCache n _ | .tScan n _ _ _ | .tSet n _ _ | .tCas n _ => n

/-- Arguments are positive. -/
def Pos (s : St V) : Prop := ∀ p, 1 ≤ (s.pp p).arg

theorem Pos.step {k : Nat} {s s' : St V} {a : Act V} (h : Pos s) (hs : step k s a = some s') : Pos s' := by
  have key : ∀ p pc, 1 ≤ pc.arg → ∀ q, 1 ≤ (upd s.pp p pc q).arg := by
    intro p pc hpc q; rw [upd_apply]; split
    · exact hpc
    · exact h q
  cases a with
  | pstep p =>
    have hp := h p
    simp only [MRing.step, MRing.pstep] at hs
    (repeat' split at hs) <;> (try cases hs) <;> rename_i he <;> (try rename_i he') <;>
      simp_all only [PPc.arg] <;> exact key p _ (by simp_all [PPc.arg])
  | callNext p n =>
    simp only [MRing.step] at hs
    split at hs
    · rename_i hc; cases hs; exact key p _ hc.2
    · cases hs
  | callTry p n =>
    simp only [MRing.step] at hs
    split at hs
    · rename_i hc; cases hs; exact key p _ hc.2
    · cases hs
  | weak p =>
    have hp := h p
    simp only [MRing.step, MRing.weak] at hs
    split at hs
    · rename_i he; rw [he] at hp; cases hs; exact key p _ hp
    · rename_i he; rw [he] at hp; cases hs; exact key p _ hp
    · cases hs
  | _ =>
    simp only [MRing.step] at hs
    (repeat' split at hs) <;> (try cases hs) <;> exact h

/-- The cursor never decreases. -/
theorem cursor_mono {k : Nat} {s s' : St V} {a : Act V} (h : Pos s) (hs : step k s a = some s') :
    s.cursor ≤ s'.cursor := by
  cases a with
  | pstep p =>
    have hp := h p
    simp only [MRing.step, MRing.pstep] at hs
    (repeat' split at hs) <;> (try cases hs) <;> (try exact Int.le_refl _)
    · rename_i he hc; rw [he] at hp; simp only [PPc.arg] at hp; simp only [MRing.claim]; omega
    · rename_i he hc; rw [he] at hp; simp only [PPc.arg] at hp; simp only [MRing.claim]; omega
  | _ =>
    simp only [MRing.step, MRing.weak] at hs
    (repeat' split at hs) <;> (try cases hs) <;> exact Int.le_refl _

theorem Reach.pos {k : Nat} {v : V} {s : St V} (h : Reach k v s) : Pos s := by
  induction h with
  | init => intro p; simp [St.init, PPc.arg]
  | step _ _ hs ih => exact ih.step hs

theorem Reach.inv {k : Nat} (hk : k ≤ 30) {v : V} {s : St V} (h : Reach k v s)
    (hlim : s.cursor < (2 ^ 32 - 1) * 2 ^ k) : Inv k s := by
  induction h with
  | init => exact Inv.init k v
  | step hr hok hs ih =>
    have hm := cursor_mono hr.pos hs
    exact (ih (by omega)).step hk (by omega) hok hs

end Verif.MRing
