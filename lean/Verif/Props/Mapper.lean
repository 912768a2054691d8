import Verif.Model.Mapper

/-! Properties of the mappers (C52). -/

namespace Verif.Mapper

/-- **C52**, round trip: whatever was in the message before, if the bytes written by `toMiddleware` for an object of `n` bytes
at address `o` of memory `m` are later found in a vector anywhere in a memory `m'`, `fromMiddleware` gives back the object and reads
only bytes of the vector. -/
theorem C52_round_trip (n : Nat) (m : Mem) (o : Nat) (old : List Byte) (m' : Mem) (v : Vec)
    (hv : v.bytes m' = toMiddleware n m o old) :
    fromMiddleware n m' v = object n m o ∧ ∀ a ∈ reads n v, v.addr ≤ a ∧ a < v.addr + v.len := by
  have hl : v.len = n := by
    have := congrArg List.length hv
    simpa [Vec.bytes, toMiddleware] using this
  constructor
  · have : fromMiddleware n m' v = v.bytes m' := by simp [fromMiddleware, reads, Vec.bytes, hl]
    rw [this, hv]; simp [toMiddleware, object]
  · intro a ha
    simp only [reads, List.mem_map, List.mem_range] at ha
    obtain ⟨i, hi, rfl⟩ := ha
    omega

/-- Decoding stays inside the message exactly if the message has at least as many bytes as the object. -/
theorem C52_reads_inside_iff (n : Nat) (v : Vec) :
    (∀ a ∈ reads n v, v.addr ≤ a ∧ a < v.addr + v.len) ↔ n ≤ v.len := by
  constructor
  · intro h
    by_cases hn : n = 0
    · omega
    · have := h (v.addr + (n - 1)) (by simp only [reads, List.mem_map, List.mem_range]; exact ⟨n - 1, by omega, rfl⟩)
      omega
  · intro h a ha
    simp only [reads, List.mem_map, List.mem_range] at ha
    obtain ⟨i, hi, rfl⟩ := ha
    omega

/-- A message that is long enough is decoded from its first bytes; the rest is ignored without notice.
Missing for the full **C52**: short messages, see `C52_violation_short_message`. -/
theorem C52_decodes_prefix_partial (n : Nat) (m : Mem) (v : Vec) (h : n ≤ v.len) :
    fromMiddleware n m v = (v.bytes m).take n := by
  simp only [fromMiddleware, reads, Vec.bytes, List.map_map, ← List.map_take, List.take_range, Nat.min_eq_left h]
  rfl

/-- **C52** fails: every message shorter than the object makes the decoder read outside the message, and what it returns
depends on memory outside: two memories with the same message give different objects. -/
theorem C52_violation_short_message (n : Nat) (v : Vec) (h : v.len < n) (m : Mem) :
    (∃ a ∈ reads n v, v.addr + v.len ≤ a) ∧
    ∃ m', v.bytes m' = v.bytes m ∧ fromMiddleware n m' v ≠ fromMiddleware n m v := by
  have hmem : v.addr + v.len ∈ reads n v := by
    simp only [reads, List.mem_map, List.mem_range]; exact ⟨v.len, h, rfl⟩
  refine ⟨⟨_, hmem, Nat.le_refl _⟩, upd m (v.addr + v.len) (m (v.addr + v.len) + 1), ?_, ?_⟩
  · unfold Vec.bytes
    apply List.map_congr_left
    intro i hi
    have := List.mem_range.mp hi
    exact upd_other _ _ (by omega)
  · intro hc
    have : ∀ a ∈ reads n v, upd m (v.addr + v.len) (m (v.addr + v.len) + 1) a = m a := by
      intro a ha
      exact List.map_inj_left.mp hc a ha
    have := this _ hmem
    rw [upd_same] at this
    revert this
    generalize m (v.addr + v.len) = x
    intro h
    have h1 := congrArg UInt8.toNat h
    rw [UInt8.toNat_add] at h1
    have hx := UInt8.toNat_lt x
    have : (1 : UInt8).toNat = 1 := rfl
    omega

/-- The identity mapper gives back the event whatever the two objects contained. -/
theorem C52_identity_round_trip {K : Type} (k k0 m0 : K) : identityFrom (identityTo k m0) k0 = k := rfl

theorem declared_guard (g : List String) (hs : List Header) (h : Header) (hd : h ∈ declared g hs) : h.guard ∉ g := by
  induction hs generalizing g with
  | nil => simp [declared] at hd
  | cons a hs ih =>
    unfold declared at hd
    split at hd
    · exact ih g hd
    · rename_i hg
      rcases List.mem_cons.mp hd with rfl | hd
      · exact hg
      · have := ih _ hd
        exact fun hc => this (List.mem_cons_of_mem _ hc)

/-- **C52** fails: a program that includes both headers, in any order and together with any others, gets only one of the two
mappers, because the headers share an include guard. -/
theorem C52_violation_shared_guard (hs : List Header) :
    ¬ (Header.identity ∈ declared [] hs ∧ Header.voidCaster ∈ declared [] hs) := by
  have key : ∀ g, ¬ (Header.identity ∈ declared g hs ∧ Header.voidCaster ∈ declared g hs) := by
    induction hs with
    | nil => simp [declared]
    | cons a hs ih =>
      intro g
      unfold declared
      split
      · exact ih g
      · rintro ⟨h1, h2⟩
        rcases List.mem_cons.mp h1 with e1 | h1 <;> rcases List.mem_cons.mp h2 with e2 | h2
        · rw [← e1] at e2; cases e2
        · have := declared_guard _ _ _ h2
          rw [← e1] at this
          exact this (by simp [Header.guard])
        · have := declared_guard _ _ _ h1
          rw [← e2] at this
          exact this (by simp [Header.guard])
        · exact ih _ ⟨h1, h2⟩
  exact key []

/-- The other mapper headers may be included together with each other and with one of the two, in any order.
Missing: the two headers that share an include guard (`C52_violation_shared_guard`). -/
theorem C52_includes_partial (hs : List Header) (hx : Header.identity ∉ hs ∨ Header.voidCaster ∉ hs) (h : Header) :
    h ∈ declared [] hs ↔ h ∈ hs := by
  have key : ∀ g, h ∈ declared g hs ↔ h ∈ hs ∧ h.guard ∉ g := by
    induction hs with
    | nil => simp [declared]
    | cons a hs ih =>
      intro g
      have hx' : Header.identity ∉ hs ∨ Header.voidCaster ∉ hs :=
        hx.imp (fun h hc => h (List.mem_cons_of_mem _ hc)) (fun h hc => h (List.mem_cons_of_mem _ hc))
      have hg : h ∈ hs → h.guard = a.guard → h = a := by
        intro hm he
        have h1 : ¬ (a = .identity ∧ h = .voidCaster) := by
          rintro ⟨rfl, rfl⟩
          rcases hx with hx | hx
          · exact hx List.mem_cons_self
          · exact hx (List.mem_cons_of_mem _ hm)
        have h2 : ¬ (a = .voidCaster ∧ h = .identity) := by
          rintro ⟨rfl, rfl⟩
          rcases hx with hx | hx
          · exact hx (List.mem_cons_of_mem _ hm)
          · exact hx List.mem_cons_self
        revert he h1 h2
        cases a <;> cases h <;> simp [Header.guard]
      unfold declared
      split
      · rename_i hag
        rw [ih hx']
        constructor
        · rintro ⟨h1, h2⟩; exact ⟨List.mem_cons_of_mem _ h1, h2⟩
        · rintro ⟨h1, h2⟩
          rcases List.mem_cons.mp h1 with rfl | h1
          · exact absurd hag h2
          · exact ⟨h1, h2⟩
      · rename_i hag
        simp only [List.mem_cons, ih hx']
        constructor
        · rintro (rfl | ⟨h1, h2⟩)
          · exact ⟨Or.inl rfl, hag⟩
          · exact ⟨Or.inr h1, fun hc => h2 (Or.inr hc)⟩
        · rintro ⟨h1 | h1, h2⟩
          · exact Or.inl h1
          · by_cases he : h.guard = a.guard
            · exact Or.inl (hg h1 he)
            · exact Or.inr ⟨h1, fun h => h.elim he h2⟩
  rw [key []]
  simp

/-- Concrete cases. -/
theorem C52_example :
    let m : Mem := fun a => UInt8.ofNat (a * 3)
    fromMiddleware 3 m ⟨10, 3⟩ = [30, 33, 36] ∧ (⟨10, 3⟩ : Vec).bytes m = toMiddleware 3 (fun a => UInt8.ofNat (30 + 3 * a)) 0 [9] ∧
    fromMiddleware 3 m ⟨10, 2⟩ = [30, 33, 36] ∧
    declared [] [.json, .voidCaster, .binary, .identity, .json] = [.json, .voidCaster, .binary] := by
  decide +kernel

end Verif.Mapper
