import Verif.Model.Sequencer
import Mathlib.Tactic.Positivity
import Mathlib.Tactic.Linarith
import Mathlib.Tactic.NormNum
import Mathlib.Tactic.Zify
import Mathlib.Algebra.Order.Ring.Int

/-! Lemmas about the ring arithmetic. -/

namespace Verif.Disr

theorem toInt32_eq (x : Int) : toInt32 x = Int.bmod x (2 ^ 32) := by
  simp [toInt32]

theorem toInt32_small {x : Int} (h1 : -2 ^ 31 ≤ x) (h2 : x < 2 ^ 31) : toInt32 x = x := by
  rw [toInt32_eq]; apply Int.bmod_eq_of_le <;> omega

theorem log2_pow (k : Nat) : log2 (2 ^ (k + 1)) = some (k + 1) := by
  induction k with
  | zero => unfold log2; decide
  | succ k ih =>
    rw [log2]
    have h0 : 0 < 2 ^ (k + 1 + 1) := Nat.two_pow_pos _
    have h2 : 2 ^ (k + 1 + 1) / 2 = 2 ^ (k + 1) := by rw [Nat.pow_succ]; omega
    have h1 : 2 ^ (k + 1) ≠ 1 := by
      have : 2 ^ (k + 1) = 2 * 2 ^ k := by rw [Nat.pow_succ]; omega
      omega
    rw [dif_pos h0, h2, if_neg h1, ih]; rfl

theorem log2_one : log2 1 = none := by
  unfold log2
  unfold log2
  decide

theorem and_mask (w k : Nat) (hk : k < w) (s : Int) :
    (BitVec.ofInt w s &&& BitVec.ofInt w ((2 : Int) ^ k - 1)).toNat = (s % 2 ^ k).toNat := by
  have e : (BitVec.ofInt w ((2 : Int) ^ k - 1)).toNat = 2 ^ k - 1 := by
    rw [BitVec.toNat_ofInt]
    have hp : (2 : Int) ^ k - 1 = ((2 ^ k - 1 : Nat) : Int) := by
      rw [Int.natCast_sub (Nat.two_pow_pos k)]; simp
    rw [hp]
    have hp2 : 0 < 2 ^ k := Nat.two_pow_pos k
    have : (2 : Nat) ^ k < 2 ^ w := Nat.pow_lt_pow_right (by omega) hk
    rw [← Int.natCast_emod, Int.toNat_natCast, Nat.mod_eq_of_lt (by omega)]
  rw [BitVec.toNat_and, e, Nat.and_two_pow_sub_one_eq_mod, BitVec.toNat_ofInt]
  have hd : (2 : Int) ^ k ∣ ((2 ^ w : Nat) : Int) := by
    rw [Int.natCast_pow]; exact pow_dvd_pow _ hk.le
  have h3 : s % 2 ^ k = (s % ((2 ^ w : Nat) : Int)) % 2 ^ k := (Int.emod_emod_of_dvd s hd).symm
  rw [h3]
  have hnn : 0 ≤ s % ((2 ^ w : Nat) : Int) := Int.emod_nonneg _ (by positivity)
  have hp : (2 : Int) ^ k = ((2 ^ k : Nat) : Int) := by simp
  rw [hp, ← Int.toNat_natCast ((s % ((2 ^ w : Nat) : Int)).toNat % 2 ^ k), Int.natCast_emod, Int.toNat_of_nonneg hnn]

theorem slotIdx_eq {k : Nat} (hk : k ≤ 30) (s : Int) : slotIdx k s = (s % 2 ^ k).toNat := and_mask 64 k (by omega) s
theorem availIdx_eq {k : Nat} (hk : k ≤ 30) (s : Int) : availIdx k s = (s % 2 ^ k).toNat := and_mask 32 k (by omega) s

theorem idx_lt {k : Nat} (s : Int) : (s % 2 ^ k).toNat < 2 ^ k := by
  have h0 : (0 : Int) < 2 ^ k := by positivity
  have := Int.emod_lt_of_pos s h0
  have h2 := Int.emod_nonneg s h0.ne'
  zify
  rw [Int.toNat_of_nonneg h2]; exact this

theorem idx_eq_iff {k : Nat} (s t : Int) : (s % 2 ^ k).toNat = (t % 2 ^ k).toNat ↔ s % 2 ^ k = t % 2 ^ k := by
  have h0 : (0 : Int) < 2 ^ k := by positivity
  have h1 := Int.emod_nonneg s h0.ne'
  have h2 := Int.emod_nonneg t h0.ne'
  omega

/-- Sequences less than one ring apart in the same slot are equal. -/
theorem emod_inj {B s t : Int} (_hB : 0 < B) (h : s % B = t % B) (h1 : s < t + B) (h2 : t < s + B) : s = t := by
  have := Int.emod_emod_of_dvd s (dvd_refl B)
  have hd : B ∣ s - t := Int.ModEq.dvd (Int.ModEq.symm h)
  obtain ⟨q, hq⟩ := hd
  have : q = 0 := by
    have a1 : B * q < B * 1 := by rw [← hq]; omega
    have a2 : B * (-1) < B * q := by rw [← hq]; omega
    have := lt_of_mul_lt_mul_left a1 (by omega)
    have := lt_of_mul_lt_mul_left a2 (by omega)
    omega
  subst this; omega

theorem availFlag_eq {k : Nat} {s : Int} (h0 : 0 ≤ s) (h1 : s < 2 ^ 63) :
    availFlag k s = Int.bmod (s / 2 ^ k) (2 ^ 32) := by
  obtain ⟨n, rfl⟩ := Int.eq_ofNat_of_zero_le h0
  have hn : n < 2 ^ 63 := by
    have : ((n : Nat) : Int) < ((2 ^ 63 : Nat) : Int) := by simpa using h1
    exact Int.ofNat_lt.mp this
  unfold availFlag
  rw [BitVec.toInt_eq_toNat_bmod]
  simp only [BitVec.toNat_setWidth, BitVec.toNat_ushiftRight, BitVec.ofInt_natCast, BitVec.toNat_ofNat]
  rw [Nat.mod_eq_of_lt (a := n) (by omega), Nat.shiftRight_eq_div_pow]
  have : ((n : Int) / 2 ^ k) = ((n / 2 ^ k : Nat) : Int) := by simp
  rw [this]
  push_cast
  exact Int.emod_bmod _ 4294967296

/-- Below `(2^32 - 1)` rounds the flags of one slot are pairwise different. -/
theorem flag_inj {k : Nat} (hk : k ≤ 30) {s t : Int} (hs0 : 0 ≤ s) (ht0 : 0 ≤ t)
    (hs : s < (2 ^ 32 - 1) * 2 ^ k) (ht : t < (2 ^ 32 - 1) * 2 ^ k)
    (hi : s % 2 ^ k = t % 2 ^ k) (hf : availFlag k s = availFlag k t) : s = t := by
  have hkpos : (0 : Int) < 2 ^ k := by positivity
  have hk2 : (2 : Int) ^ k ≤ 2 ^ 30 := pow_le_pow_right₀ (by norm_num) hk
  have hbig : (2 ^ 32 - 1) * 2 ^ k < (2 : Int) ^ 63 := by nlinarith
  rw [availFlag_eq hs0 (by omega), availFlag_eq ht0 (by omega)] at hf
  have a1 : s / 2 ^ k < 2 ^ 32 - 1 := Int.ediv_lt_of_lt_mul hkpos hs
  have a2 : t / 2 ^ k < 2 ^ 32 - 1 := Int.ediv_lt_of_lt_mul hkpos ht
  have a3 : 0 ≤ s / 2 ^ k := Int.ediv_nonneg hs0 hkpos.le
  have a4 : 0 ≤ t / 2 ^ k := Int.ediv_nonneg ht0 hkpos.le
  have hq : s / 2 ^ k = t / 2 ^ k := by
    simp only [Int.bmod_def] at hf
    omega
  rw [← Int.mul_ediv_add_emod s (2 ^ k), ← Int.mul_ediv_add_emod t (2 ^ k), hq, hi]

theorem flag_ne_init {k : Nat} (hk : k ≤ 30) {s : Int} (hs0 : 0 ≤ s) (hs : s < (2 ^ 32 - 1) * 2 ^ k) :
    availFlag k s ≠ -1 := by
  have hkpos : (0 : Int) < 2 ^ k := by positivity
  have hk2 : (2 : Int) ^ k ≤ 2 ^ 30 := pow_le_pow_right₀ (by norm_num) hk
  have hbig : (2 ^ 32 - 1) * 2 ^ k < (2 : Int) ^ 63 := by nlinarith
  rw [availFlag_eq hs0 (by omega)]
  have a1 : s / 2 ^ k < 2 ^ 32 - 1 := Int.ediv_lt_of_lt_mul hkpos hs
  have a3 : 0 ≤ s / 2 ^ k := Int.ediv_nonneg hs0 hkpos.le
  simp only [Int.bmod_def]
  omega

theorem minSeq_le (vals : List Int) (m : Int) : minSeq vals m ≤ m ∧ ∀ v ∈ vals, minSeq vals m ≤ v := by
  induction vals generalizing m with
  | nil => simp [minSeq]
  | cons a l ih =>
    have e : minSeq (a :: l) m = minSeq l (if a < m then a else m) := rfl
    rw [e]
    obtain ⟨h1, h2⟩ := ih (if a < m then a else m)
    have h3 : (if a < m then a else m) ≤ m ∧ (if a < m then a else m) ≤ a := by split <;> omega
    refine ⟨by omega, ?_⟩
    intro v hv
    rcases List.mem_cons.mp hv with rfl | hv
    · omega
    · exact h2 v hv

theorem minSeq_mem (vals : List Int) (m : Int) : minSeq vals m = m ∨ minSeq vals m ∈ vals := by
  induction vals generalizing m with
  | nil => simp [minSeq]
  | cons a l ih =>
    have e : minSeq (a :: l) m = minSeq l (if a < m then a else m) := rfl
    rw [e]
    rcases ih (if a < m then a else m) with h | h
    · split at h
      · right; rw [if_pos (by assumption), h]; simp
      · left; rw [if_neg (by assumption), h]
    · right; exact List.mem_cons_of_mem _ h

theorem le_minSeq {vals : List Int} {m x : Int} (h1 : x ≤ m) (h2 : ∀ v ∈ vals, x ≤ v) : x ≤ minSeq vals m := by
  rcases minSeq_mem vals m with h | h
  · rw [h]; exact h1
  · exact h2 _ h

end Verif.Disr
