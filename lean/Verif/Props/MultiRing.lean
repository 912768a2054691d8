import Verif.Lemmas.MultiRingLog

/-!
Properties of the multi producer ring: claims (C22), publication (C23), `try_next` (C24), delivery (C25), indexing (C27).

Executions are those of `Reach`: any number of producers and processors, every interleaving of their steps, gating sequences added
only while no claim is unpublished, `try_next` only below 2^31 (`OkAct`).  The theorems `C22_late_gating_*`,
`C22_ungated_overlap` and `C24_*_beyond_int` show what happens without these restrictions.
-/

namespace Verif.MRing
open Verif Verif.Disr

variable {V : Type}

/-! ### C27: indexing -/

/-- **C27**: the slot of a sequence is its remainder modulo the ring size, for both index computations of the code. -/
theorem C27_index {k : Nat} (hk : k ≤ 30) (s : Int) :
    slotIdx k s = (s % 2 ^ k).toNat ∧ availIdx k s = (s % 2 ^ k).toNat ∧ slotIdx k s < 2 ^ k :=
  ⟨slotIdx_eq hk s, availIdx_eq hk s, by rw [slotIdx_eq hk]; exact idx_lt s⟩

/-- **C27**: two sequences share a slot exactly if they differ by a multiple of the ring size. -/
theorem C27_same_slot {k : Nat} (hk : k ≤ 30) (s t : Int) : slotIdx k s = slotIdx k t ↔ ∃ q, s - t = q * 2 ^ k := by
  rw [slotIdx_eq hk, slotIdx_eq hk, idx_eq_iff, Int.emod_eq_emod_iff_emod_sub_eq_zero]
  constructor
  · intro h
    obtain ⟨q, hq⟩ := Int.dvd_of_emod_eq_zero h
    exact ⟨q, by rw [hq, Int.mul_comm]⟩
  · rintro ⟨q, hq⟩
    rw [hq]; exact Int.mul_emod_left _ _

/-- **C27**: the availability flags of two different sequences of one slot differ if they are fewer than 2^32 rounds apart. -/
theorem C27_flag_distinguishes {k : Nat} (hk : k ≤ 30) {s t : Int} (hs : 0 ≤ s) (hs' : s < 2 ^ 63) (ht : 0 ≤ t)
    (ht' : t < 2 ^ 63) (hi : availIdx k s = availIdx k t) (hd1 : s - t < 2 ^ 32 * 2 ^ k) (hd2 : t - s < 2 ^ 32 * 2 ^ k)
    (hf : availFlag k s = availFlag k t) : s = t := by
  have hkpos := pow_pos' k
  have hm := emod_of_idx hk hi
  rw [availFlag_eq hs hs', availFlag_eq ht ht', Int.bmod_eq_bmod_iff_bmod_sub_eq_zero] at hf
  have hb := Int.dvd_of_bmod_eq_zero hf
  have e1 := Int.mul_ediv_add_emod s (2 ^ k)
  have e2 := Int.mul_ediv_add_emod t (2 ^ k)
  obtain ⟨q, hq⟩ := hb
  push_cast at hq
  have e3 : s - t = 2 ^ k * (s / 2 ^ k - t / 2 ^ k) := by rw [Int.mul_sub]; omega
  have hlt : s / 2 ^ k - t / 2 ^ k < 2 ^ 32 := by
    apply lt_of_mul_lt_mul_left (a := (2 : Int) ^ k) _ hkpos.le
    rw [← e3, Int.mul_comm]; exact hd1
  have hgt : -(2 ^ 32) < s / 2 ^ k - t / 2 ^ k := by
    apply lt_of_mul_lt_mul_left (a := (2 : Int) ^ k) _ hkpos.le
    rw [← e3]
    have : (2 : Int) ^ k * -2 ^ 32 = -(2 ^ 32 * 2 ^ k) := by rw [Int.mul_neg, Int.mul_comm]
    omega
  have : q = 0 := by omega
  subst this
  have h0 : s / 2 ^ k - t / 2 ^ k = 0 := by omega
  rw [h0] at e3
  omega

/-- The bound of C27 is sharp: the flags of sequences exactly 2^32 rounds apart agree. -/
theorem C27_flag_wraps {k : Nat} (hk : k ≤ 30) {s : Int} (hs : 0 ≤ s) (hs' : s + 2 ^ 32 * 2 ^ k < 2 ^ 63) :
    availIdx k (s + 2 ^ 32 * 2 ^ k) = availIdx k s ∧ availFlag k (s + 2 ^ 32 * 2 ^ k) = availFlag k s := by
  have hkpos := pow_pos' k
  constructor
  · rw [availIdx_eq hk, availIdx_eq hk, idx_eq_iff]; exact Int.add_mul_emod_self_right _ _ _
  · have : (0 : Int) ≤ 2 ^ 32 * 2 ^ k := by positivity
    rw [availFlag_eq (by omega) hs', availFlag_eq hs (by omega), Int.add_mul_ediv_right _ _ hkpos.ne']
    simp only [Int.bmod_def]
    omega

/-- **C27**: a ring compiles only if its size is a power of two (or 0, which the check lets through). -/
theorem C27_size_check (b : BitVec 64) : sizeOk b = true ↔ b = 0 ∨ ∃ k < 64, b = BitVec.ofNat 64 (2 ^ k) := by
  have h0 : sizeOk b = true ↔ b &&& (b - 1#64) = 0#64 := by
    unfold sizeOk
    have e : ~~~b + 1 = ~~~(b - 1#64) := BitVec.not_sub_one_eq_not_add_one.symm
    rw [e, beq_iff_eq]
    generalize b - 1#64 = c
    constructor
    · intro h
      ext i hi
      have := congrArg (fun x : BitVec 64 => x[i]) h
      simp only [BitVec.getElem_and, BitVec.getElem_not, BitVec.getElem_zero] at this ⊢
      cases hb : b[i] <;> cases hc : c[i] <;> simp_all
    · intro h
      ext i hi
      have := congrArg (fun x : BitVec 64 => x[i]) h
      simp only [BitVec.getElem_and, BitVec.getElem_not, BitVec.getElem_zero] at this ⊢
      cases hb : b[i] <;> cases hc : c[i] <;> simp_all
  rw [h0]
  by_cases hb : b = 0#64
  · subst hb; simp
  have hn : b.toNat ≠ 0 := fun h => hb (BitVec.eq_of_toNat_eq (by simpa using h))
  have hlt : b.toNat < 2 ^ 64 := b.isLt
  have h1 : b &&& (b - 1#64) = 0#64 ↔ b.toNat &&& (b.toNat - 1) = 0 := by
    rw [← BitVec.toNat_inj, BitVec.toNat_and, BitVec.toNat_sub]
    have : (2 ^ 64 - (1#64).toNat + b.toNat) % 2 ^ 64 = b.toNat - 1 := by simp; omega
    rw [this]; simp
  rw [h1, Nat.and_sub_one_eq_zero_iff_isPowerOfTwo hn]
  constructor
  · rintro ⟨k, hk⟩
    have hk64 : k < 64 := by
      rw [hk] at hlt; exact (Nat.pow_lt_pow_iff_right (by decide)).mp hlt
    exact .inr ⟨k, hk64, BitVec.eq_of_toNat_eq (by rw [BitVec.toNat_ofNat, ← hk, Nat.mod_eq_of_lt hlt])⟩
  · rintro (h | ⟨k, hk, rfl⟩)
    · exact absurd h hb
    · refine ⟨k, ?_⟩
      rw [BitVec.toNat_ofNat, Nat.mod_eq_of_lt ((Nat.pow_lt_pow_iff_right (by decide)).mpr hk)]

/-- A size that is not a power of two is rejected, one that is is accepted; 0 is accepted too. -/
theorem C27_example_size : sizeOk 96#64 = false ∧ sizeOk 1024#64 = true ∧ sizeOk 0#64 = true := by decide +kernel

/-- **C27**: the shift computed at compile time is the exponent of the size; a ring of one slot does not compile. -/
theorem C27_shift (k : Nat) : log2 (2 ^ (k + 1)) = some (k + 1) ∧ log2 1 = none := ⟨log2_pow k, log2_one⟩

example : slotIdx 3 21 = 5 ∧ availIdx 3 21 = 5 ∧ availFlag 3 21 = 2 := by decide +kernel

/-! ### C22: claims -/

/-- **C22**: the claims handed out by `next` and `try_next` are pairwise disjoint, lie in `0..cursor` and cover it. -/
theorem C22_claims_tile {k : Nat} {v : V} {s : St V} (h : Reach k v s) :
    s.claims.Pairwise (fun a b => ∀ x, ¬ (a.2.1 ≤ x ∧ x ≤ a.2.2 ∧ b.2.1 ≤ x ∧ x ≤ b.2.2)) ∧
    (∀ a ∈ s.claims, 0 ≤ a.2.1 ∧ a.2.2 ≤ s.cursor) ∧
    (∀ x, 0 ≤ x → x ≤ s.cursor → ∃ a ∈ s.claims, a.2.1 ≤ x ∧ x ≤ a.2.2) := by
  have hc := h.chain
  refine ⟨hc.disjoint.imp (fun h x hx => by omega), hc.bound.2, hc.cover⟩

/-- **C22**: no claimed sequence is more than the ring size ahead of a gating processor. -/
theorem C22_no_overrun {k : Nat} (hk : k ≤ 30) {v : V} {s : St V} (h : Reach k v s)
    (hlim : s.cursor < (2 ^ 32 - 1) * 2 ^ k) :
    ∀ a ∈ s.claims, ∀ c ∈ s.gating, a.2.2 ≤ s.seq c + 2 ^ k := by
  intro a ha c hc
  have h1 := (h.chain.bound.2 a ha).2
  have h2 := (h.inv hk hlim).over c hc
  omega

/-- **C22**: while there is a gating processor, no slot is claimed by two producers at the same time: the slot a producer writes to
is neither owned by another producer for any sequence nor holds an event still unread by a gating processor. -/
theorem C22_slot_exclusive {k : Nat} (hk : k ≤ 30) {v : V} {s : St V} (h : Reach k v s)
    (hlim : s.cursor < (2 ^ 32 - 1) * 2 ^ k) {c : Nat} (hc : c ∈ s.gating) {x y : Int} {p : Nat}
    (hx : s.owner x = some p) (he : slotIdx k y = slotIdx k x) (hy : s.seq c < y) (hy' : y ≤ s.cursor) : y = x := by
  have hi := h.inv hk hlim
  exact hi.uniq hc hy hy' (hi.own_gt x p hx c hc) (hi.own_rng x p hx).2 (emod_of_sidx hk he)

/-- **C22/C21**: an event published and not yet passed by some gating processor is unchanged in its slot. -/
theorem C22_unread_event_unchanged {k : Nat} (hk : k ≤ 30) {v : V} {s : St V} (h : Reach k v s)
    (hlim : s.cursor < (2 ^ 32 - 1) * 2 ^ k) {c : Nat} (hc : c ∈ s.gating) {x : Int} {w : V}
    (hx : s.seq c < x) (hp : s.pub x = some w) : s.slot (slotIdx k x) = w := by
  have hi := h.inv hk hlim
  have hle : x ≤ s.cursor := by
    by_contra hh
    rw [hi.pub_none x (by omega)] at hp; cases hp
  cases ho : s.owner x with
  | some p => rw [hi.pub_own x p ho] at hp; cases hp
  | none =>
    have := hi.slot_pub c hc x hx hle ho
    rw [hp] at this
    exact (Option.some.inj this).symm

/-- **C22**: in every handler call of a gating processor the slot holds the value that was published for that sequence, from the
beginning to the end of the call (the statement holds in every state during the call). -/
theorem C22_handler_sees_published {k : Nat} (hk : k ≤ 30) {v : V} {s : St V} (h : Reach k v s)
    (hlim : s.cursor < (2 ^ 32 - 1) * 2 ^ k) {c : Nat} (hc : c ∈ s.gating) {x av : Int}
    (hh : s.cp c = .handle x av) : s.pub x = some (s.slot (slotIdx k x)) := by
  have hi := h.inv hk hlim
  have := hi.cons c hc
  rw [hh] at this
  obtain ⟨h1, h2, h3, h4⟩ := this
  exact hi.slot_pub c hc x h1 (by omega) (h4 x h1 h2)

/-- A published value never changes. -/
theorem C22_published_once {k : Nat} {s s' : St V} {a : Act V} (hk : k ≤ 30) {v : V} (h : Reach k v s)
    (hlim : s.cursor < (2 ^ 32 - 1) * 2 ^ k) (hs : step k s a = some s') {x : Int} {w : V} (hp : s.pub x = some w) :
    s'.pub x = some w := by
  have hi := h.inv hk hlim
  cases a with
  | publish p y =>
    simp only [step] at hs
    split at hs
    · rename_i ho
      cases hs
      have : x ≠ y := by rintro rfl; rw [hi.pub_own x p ho] at hp; cases hp
      simp [this, hp]
    · cases hs
  | pstep p =>
    simp only [MRing.step, MRing.pstep] at hs
    (repeat' split at hs) <;> (try cases hs) <;> exact hp
  | _ =>
    simp only [MRing.step, MRing.weak] at hs
    (repeat' split at hs) <;> (try cases hs) <;> exact hp

/-- Steps of producer `p` alone through the scan of the gating sequences. -/
theorem nscan_run {k : Nat} {s : St V} {p : Nat} (n cur : Int) (rest : List Nat) (m : Int)
    (hp : s.pp p = .nScan n cur rest m) :
    run k s (List.replicate rest.length (.pstep p)) =
      some { s with pp := upd s.pp p (.nScan n cur [] (minSeq (rest.map s.seq) m)) } := by
  induction rest generalizing s m with
  | nil =>
    simp only [List.length_nil, List.replicate, run, minSeq, List.map_nil, List.foldl_nil]
    rw [← hp, upd_self]
  | cons c rest ih =>
    simp only [List.length_cons, List.replicate_succ, run, step, pstep, hp]
    rw [ih (s := { s with pp := upd s.pp p (.nScan n cur rest (if s.seq c < m then s.seq c else m)) })
      (if s.seq c < m then s.seq c else m) (by simp)]
    simp only [minSeq, List.map_cons, List.foldl_cons, Option.some.injEq, St.mk.injEq, true_and, and_true]
    funext d; simp only [upd_apply]; split <;> rfl

theorem tscan_run {k : Nat} {s : St V} {p : Nat} (n cur : Int) (rest : List Nat) (m : Int)
    (hp : s.pp p = .tScan n cur rest m) :
    run k s (List.replicate rest.length (.pstep p)) =
      some { s with pp := upd s.pp p (.tScan n cur [] (minSeq (rest.map s.seq) m)) } := by
  induction rest generalizing s m with
  | nil =>
    simp only [List.length_nil, List.replicate, run, minSeq, List.map_nil, List.foldl_nil]
    rw [← hp, upd_self]
  | cons c rest ih =>
    simp only [List.length_cons, List.replicate_succ, run, step, pstep, hp]
    rw [ih (s := { s with pp := upd s.pp p (.tScan n cur rest (if s.seq c < m then s.seq c else m)) })
      (if s.seq c < m then s.seq c else m) (by simp)]
    simp only [minSeq, List.map_cons, List.foldl_cons, Option.some.injEq, St.mk.injEq, true_and, and_true]
    funext d; simp only [upd_apply]; split <;> rfl

theorem run_replicate_add (k : Nat) (s : St V) (a : Act V) (i j : Nat) :
    run k s (List.replicate (i + j) a) = (run k s (List.replicate i a)).bind (fun s' => run k s' (List.replicate j a)) := by
  rw [← run_append, List.replicate_append_replicate]

/-- **C22**: `next(n)` returns: if there is room for `n` events, a number of steps of the caller alone ends the call with the claim
of the `n` sequences after the cursor. -/
theorem C22_next_returns {k : Nat} {s : St V} {p : Nat} {n : Int} (hn : n ≤ 2 ^ k)
    (hp : s.pp p = .nLoad n) (hroom : ∀ c ∈ s.gating, s.cursor + n - 2 ^ k ≤ s.seq c) :
    ∃ j s', run k s (List.replicate j (.pstep p)) = some s' ∧ s'.pp p = .idle ∧ s'.cursor = s.cursor + n ∧
      s'.claims = (p, s.cursor + 1, s.cursor + n) :: s.claims := by
  -- second attempt, with a good cache
  have fast : ∀ s : St V, s.pp p = .nLoad n → ¬ (s.cursor + n - 2 ^ k > s.cache ∨ s.cache > s.cursor) →
      run k s (List.replicate 3 (.pstep p)) =
        some (claim { s with pp := upd (upd s.pp p (.nCache n s.cursor)) p (.nCas n s.cursor) } p s.cursor n) := by
    intro s hp hc
    simp only [List.replicate, run, step, pstep, hp, upd_same, hc, if_false, if_true]
  by_cases hc : s.cursor + n - 2 ^ k > s.cache ∨ s.cache > s.cursor
  · set s1 : St V := { s with pp := upd (upd s.pp p (.nCache n s.cursor)) p (.nScan n s.cursor s.gating s.cursor) } with hs1
    have r1 : run k s (List.replicate 2 (.pstep p)) = some s1 := by
      simp only [List.replicate, run, step, pstep, hp, upd_same, hc, if_true]
      rfl
    have r2 := nscan_run (k := k) (s := s1) (p := p) n s.cursor s.gating s.cursor (by simp [hs1])
    set m := minSeq (s.gating.map s1.seq) s.cursor with hm
    have hm1 : s.cursor + n - 2 ^ k ≤ m := by
      apply le_minSeq
      · omega
      · intro v hv
        obtain ⟨c, hc', rfl⟩ := List.mem_map.mp hv
        exact hroom c hc'
    have hm2 : m ≤ s.cursor := (minSeq_le _ _).1
    set s2 : St V := { s1 with pp := upd s1.pp p (.nScan n s.cursor [] m) } with hs2
    set s3 : St V := { s2 with cache := m, pp := upd (upd s2.pp p (.nSet n m)) p (.nLoad n) } with hs3
    have r3 : run k s2 (List.replicate 2 (.pstep p)) = some s3 := by
      have e : s2.pp p = .nScan n s.cursor [] m := by simp [hs2]
      simp only [List.replicate, run, step, pstep, e]
      rw [if_neg (by omega)]
      simp only [upd_same]
      rfl
    have r4 := fast s3 (by simp [hs3]) (by simp only [hs3, hs2, hs1]; omega)
    refine ⟨2 + (s.gating.length + (2 + 3)),
      claim { s3 with pp := upd (upd s3.pp p (.nCache n s3.cursor)) p (.nCas n s3.cursor) } p s3.cursor n, ?_, ?_, ?_, ?_⟩
    · rw [run_replicate_add, r1, Option.bind_some, run_replicate_add, r2, Option.bind_some, run_replicate_add, r3,
        Option.bind_some, r4]
    · simp [claim]
    · simp [claim, hs3, hs2, hs1]
    · simp [claim, hs3, hs2, hs1]
  · exact ⟨3, _, fast s hp hc, by simp [claim], by simp [claim], by simp [claim]⟩

/-! ### C24: `try_next` -/

/-- The steps of `try_next(n)` of one producer without interference compute the function `tryNextM`. -/
theorem C24_try_next_function {k : Nat} {s : St V} {p : Nat} {n : Int} (hp : s.pp p = .tLoad n) :
    ∃ j s', run k s (List.replicate j (.pstep p)) = some s' ∧ s'.pp p = .idle ∧
      s'.cursor = (tryNextM (2 ^ k) s.cursor s.cache (s.gating.map s.seq) n).1.getD s.cursor ∧
      s'.cache = (tryNextM (2 ^ k) s.cursor s.cache (s.gating.map s.seq) n).2 := by
  simp only [tryNextM, hasCapacity]
  by_cases hc : toInt32 (toInt32 s.cursor + n) - 2 ^ k > s.cache ∨ s.cache > toInt32 s.cursor
  · set s1 : St V := { s with pp := upd (upd s.pp p (.tCache n s.cursor)) p (.tScan n s.cursor s.gating (toInt32 s.cursor)) }
      with hs1
    have r1 : run k s (List.replicate 2 (.pstep p)) = some s1 := by
      simp only [List.replicate, run, step, pstep, hp, upd_same, hc, if_true]
      rfl
    have r2 := tscan_run (k := k) (s := s1) (p := p) n s.cursor s.gating (toInt32 s.cursor) (by simp [hs1])
    have e1 : s1.seq = s.seq := rfl
    rw [e1] at r2
    set m := minSeq (s.gating.map s.seq) (toInt32 s.cursor) with hm
    set s2 : St V := { s1 with pp := upd s1.pp p (.tScan n s.cursor [] m) } with hs2
    by_cases hw : toInt32 (toInt32 s.cursor + n) - 2 ^ k > m
    · set s3 : St V := { s2 with cache := m, pp := upd (upd s2.pp p (.tSet n s.cursor m)) p .idle } with hs3
      have r3 : run k s2 (List.replicate 2 (.pstep p)) = some s3 := by
        have e : s2.pp p = .tScan n s.cursor [] m := by simp [hs2]
        simp only [List.replicate, run, step, pstep, e, upd_same, hw, if_true]
        rfl
      refine ⟨2 + (s.gating.length + 2), s3, ?_, ?_, ?_, ?_⟩
      · rw [run_replicate_add, r1, Option.bind_some, run_replicate_add, r2, Option.bind_some, r3]
      · simp [hs3]
      · simp [hs3, hs2, hs1, hc, hw]
      · simp [hs3, hc]
    · set s3 : St V := { s2 with cache := m, pp := upd (upd s2.pp p (.tSet n s.cursor m)) p (.tCas n s.cursor) } with hs3
      have r3 : run k s2 (List.replicate 2 (.pstep p)) = some s3 := by
        have e : s2.pp p = .tScan n s.cursor [] m := by simp [hs2]
        simp only [List.replicate, run, step, pstep, e, upd_same, hw, if_false]
        rfl
      have r4 : run k s3 (List.replicate 1 (.pstep p)) = some (claim s3 p s.cursor n) := by
        have e : s3.pp p = .tCas n s.cursor := by simp [hs3]
        have e2 : s3.cursor = s.cursor := rfl
        simp only [List.replicate, run, step, pstep, e, e2, if_true]
      refine ⟨2 + (s.gating.length + (2 + 1)), claim s3 p s.cursor n, ?_, ?_, ?_, ?_⟩
      · rw [run_replicate_add, r1, Option.bind_some, run_replicate_add, r2, Option.bind_some, run_replicate_add, r3,
          Option.bind_some, r4]
      · simp [claim]
      · simp [claim, hc, hw]
      · simp [claim, hs3, hc]
  · refine ⟨3, claim { s with pp := upd (upd s.pp p (.tCache n s.cursor)) p (.tCas n s.cursor) } p s.cursor n, ?_, ?_, ?_, ?_⟩
    · simp only [List.replicate, run, step, pstep, hp, upd_same, hc, if_false, if_true]
    · simp [claim]
    · simp [claim, hc]
    · simp [claim, hc]

/-- **C24**, below 2^31: `try_next(n)` succeeds exactly if at least `n` slots are free (`remaining_capacity`), for every ring
size, cursor, gating position and for every gating cache that is not ahead of cursor and gating sequences (which `Inv`
guarantees).  Missing for the full property: cursors from 2^31 on, where it fails. -/
theorem C24_try_next_exact_partial {B cursor cache n : Int} {gating : List Int} (h0 : -1 ≤ cursor) (hn : 1 ≤ n)
    (hlim : cursor + n < 2 ^ 31) (hc1 : cache ≤ cursor) (hc2 : ∀ v ∈ gating, cache ≤ v) :
    (tryNextM B cursor cache gating n).1 = (if n ≤ remaining B cursor gating then some (cursor + n) else none) := by
  have e1 : toInt32 cursor = cursor := toInt32_small (by omega) (by omega)
  have e2 : toInt32 (cursor + n) = cursor + n := toInt32_small (by omega) (by omega)
  have hm : cache ≤ minSeq gating cursor := le_minSeq hc1 hc2
  have hrem : remaining B cursor gating = B - (cursor - minSeq gating cursor) := rfl
  generalize remaining B cursor gating = r at hrem
  simp only [tryNextM, hasCapacity, e1, e2]
  by_cases hc : cursor + n - B > cache ∨ cache > cursor
  · simp only [hc, if_true, decide_eq_true_eq]
    by_cases hw : cursor + n - B > minSeq gating cursor
    · rw [if_neg (not_not.mpr hw), if_neg (by omega)]
    · rw [if_pos hw, if_pos (by omega)]
  · simp only [hc, if_false, if_true]
    rw [if_pos (by omega)]

/-- **C24** fails: once the cursor has reached 2^31 - n, `try_next(n)` always succeeds, however far behind the gating processors
are (the cursor is truncated to `int`). -/
theorem C24_accepts_everything_beyond_int {B cursor cache n : Int} {gating : List Int} (hB : B ≤ 2 ^ 30) (hn : 1 ≤ n) (hnB : n ≤ B)
    (hcur : 2 ^ 31 - n ≤ cursor) (hg : ∀ v ∈ gating, cursor - B ≤ v) :
    (tryNextM B cursor cache gating n).1 = some (cursor + n) := by
  have hb : ∀ x, -2 ^ 31 ≤ toInt32 x ∧ toInt32 x < 2 ^ 31 := by
    intro x; rw [toInt32_eq]; simp only [Int.bmod_def]; omega
  have hle : ∀ x, -2 ^ 31 ≤ x → toInt32 x ≤ x := by
    intro x hx; rw [toInt32_eq]; simp only [Int.bmod_def]; omega
  have hcv : toInt32 cursor = cursor ∨ toInt32 cursor ≤ cursor - 2 ^ 32 := by
    rw [toInt32_eq]; simp only [Int.bmod_def]; omega
  have key : ¬ (toInt32 (toInt32 cursor + n) - B > minSeq gating (toInt32 cursor)) := by
    rcases hcv with hcv | hcv
    · rw [hcv]
      have e : toInt32 (cursor + n) = cursor + n - 2 ^ 32 := by
        have h1 := (hb cursor).2
        rw [hcv] at h1
        rw [toInt32_eq]; simp only [Int.bmod_def]; omega
      have : cursor - B ≤ minSeq gating cursor := le_minSeq (by omega) hg
      omega
    · have h1 := hle (toInt32 cursor + n) (by have := (hb cursor).1; omega)
      have : toInt32 cursor ≤ minSeq gating (toInt32 cursor) := by
        refine le_minSeq (Int.le_refl _) (fun v hv => ?_)
        have := hg v hv
        omega
      omega
  simp only [tryNextM, hasCapacity]
  by_cases hc : toInt32 (toInt32 cursor + n) - B > cache ∨ cache > toInt32 cursor
  · simp only [hc, if_true, key, not_false_eq_true, decide_true]
  · simp only [hc, if_false, if_true]

/-- **C24** fails, at a concrete state: ring of 8, processor 8 behind (no slot is free), and `try_next(1)` succeeds. -/
theorem C24_overruns_at_2_pow_31 :
    remaining 8 (2 ^ 31 + 5) [2 ^ 31 - 3] = 0 ∧
    (tryNextM 8 (2 ^ 31 + 5) (2 ^ 31 - 3) [2 ^ 31 - 3] 1).1 = some (2 ^ 31 + 6) := by decide +kernel

/-- **C24** fails in the running system: from every state with the cursor in that range in which the ring is full, an
undisturbed `try_next(1)` claims, and so the cursor overruns the processor. -/
theorem C24_full_ring_overrun {k : Nat} (hk : k ≤ 30) {s : St V} {p c : Nat} (hp : s.pp p = .tLoad 1)
    (_hc : c ∈ s.gating) (hcur : 2 ^ 31 - 1 ≤ s.cursor) (hfull : s.cursor = s.seq c + 2 ^ k)
    (hg : ∀ d ∈ s.gating, s.cursor ≤ s.seq d + 2 ^ k) :
    ∃ j s', run k s (List.replicate j (.pstep p)) = some s' ∧ s'.cursor = s.cursor + 1 ∧ s.seq c + 2 ^ k < s'.cursor := by
  obtain ⟨j, s', h1, h2, h3, h4⟩ := C24_try_next_function (k := k) hp
  refine ⟨j, s', h1, ?_⟩
  have hk2 : (2 : Int) ^ k ≤ 2 ^ 30 := pow_le_pow_right₀ (by norm_num) hk
  have := pow_pos' k
  rw [C24_accepts_everything_beyond_int hk2 (by omega) (by omega) (by omega)] at h3
  · simp only [Option.getD_some] at h3
    exact ⟨h3, by omega⟩
  · intro v hv
    obtain ⟨d, hd, rfl⟩ := List.mem_map.mp hv
    have := hg d hd
    omega

/-! ### C23: publication -/

/-- **C23**: in every reachable state, `is_available(x)` is true only of published sequences, and it is true of every
published sequence that some gating processor has not passed. -/
theorem C23_is_available {k : Nat} (hk : k ≤ 30) {v : V} {s : St V} (h : Reach k v s)
    (hlim : s.cursor < (2 ^ 32 - 1) * 2 ^ k) {x : Int} (h0 : 0 ≤ x) (hx : x ≤ s.cursor) :
    (isAvailable k s.avail x = true → (s.pub x).isSome) ∧
    (∀ c ∈ s.gating, s.seq c < x → (s.pub x).isSome → isAvailable k s.avail x = true) := by
  have hi := h.inv hk hlim
  simp only [isAvailable, beq_iff_eq]
  refine ⟨fun hf => hi.pub_some x h0 hx (hi.flagged hk hlim h0 hx hf), fun c hc hs hp => ?_⟩
  apply hi.flag_set c hc x hs hx
  cases ho : s.owner x with
  | none => rfl
  | some p => rw [hi.pub_own x p ho] at hp; cases hp

/-- **C23**: `get_highest_published_sequence(lo, lo+m-1)` returns the largest `r ≤ lo+m-1` such that all of `lo..r` are
available. -/
theorem C23_highest_published (k : Nat) (av : Nat → Int) (lo : Int) (m : Nat) :
    let r := highestPublished k av lo m
    lo - 1 ≤ r ∧ r ≤ lo + m - 1 ∧ (∀ x, lo ≤ x → x ≤ r → isAvailable k av x = true) ∧
    (r = lo + m - 1 ∨ isAvailable k av (r + 1) = false) := by
  induction m generalizing lo with
  | zero => simp only [highestPublished]; refine ⟨by omega, by simp, fun x a b => by omega, Or.inl (by simp)⟩
  | succ m ih =>
    simp only [highestPublished]
    split
    · rename_i hf
      obtain ⟨h1, h2, h3, h4⟩ := ih (lo + 1)
      refine ⟨by omega, by push_cast; omega, fun x a b => ?_, ?_⟩
      · by_cases hx : x = lo
        · subst hx; simp [isAvailable, hf]
        · exact h3 x (by omega) b
      · rcases h4 with h4 | h4
        · left; push_cast; omega
        · exact Or.inr h4
    · rename_i hf
      refine ⟨by omega, by push_cast; omega, fun x a b => by omega, Or.inr ?_⟩
      have : lo - 1 + 1 = lo := by omega
      rw [this]; simp [isAvailable, hf]

/-- **C23**: a processor in its handler, or about to call it, has only published sequences in front of it up to the end of the
batch. -/
theorem C23_batch_published {k : Nat} (hk : k ≤ 30) {v : V} {s : St V} (h : Reach k v s)
    (hlim : s.cursor < (2 ^ 32 - 1) * 2 ^ k) {c : Nat} (hc : c ∈ s.gating) {nx av : Int}
    (hh : s.cp c = .batch nx av ∨ s.cp c = .handle nx av) : ∀ x, nx ≤ x → x ≤ av → (s.pub x).isSome := by
  have hi := h.inv hk hlim
  have h1 := hi.cons c hc
  have h0 := hi.seq_ge c hc
  intro x a b
  rcases hh with hh | hh <;> rw [hh] at h1 <;> obtain ⟨h1, h2, h3, h4⟩ := h1 <;>
    exact hi.pub_some x (by omega) (by omega) (h4 x (by omega) b)

/-! ### C25: delivery -/

/-- **C25**: the handler of a gating processor has been called for the sequences after the cursor at the time it was added, each
once, in increasing order and without a gap, up to `done`; a running call is for a sequence above the public sequence of the
processor. -/
theorem C25_in_order_exactly_once {k : Nat} (hk : k ≤ 30) {v : V} {s : St V} (h : Reach k v s)
    (hlim : s.cursor < (2 ^ 32 - 1) * 2 ^ k) {c : Nat} (hc : c ∈ s.gating) :
    ∃ n : Nat, (s.dlog c).reverse.map (·.1) = (List.range n).map (fun i : Nat => s.base c + 1 + (i : Int)) ∧
      s.seq c ≤ s.base c + n ∧ s.base c + n ≤ s.cursor ∧
      (∀ x av, s.cp c = .handle x av → x = s.base c + n ∧ s.seq c < x) := by
  obtain ⟨n, h1, h2⟩ := h.logs hk hlim c hc
  have hi := h.inv hk hlim
  have h3 := hi.cons c hc
  have h4 := hi.seq_le c hc
  refine ⟨n, h2, ?_⟩
  rw [← h1]
  simp only [done]
  cases hcp : s.cp c <;> rw [hcp] at h3 <;> simp only [CInv] at h3 <;> simp <;> omega

/-- **C25** (progress): let `h` be the end of the published prefix a waiting gating processor sees. Then the processor's own steps
(with a handler that does not throw) call the handler for exactly `nx, nx+1, …, h`, with the end-of-batch flag on `h` only,
and then set its public sequence to `h`. -/
theorem C25_delivers_published_prefix {k : Nat} (hk : k ≤ 30) {v : V} {s : St V} (hr : Reach k v s)
    (hlim : s.cursor < (2 ^ 32 - 1) * 2 ^ k) {c : Nat} (hc : c ∈ s.gating) {nx h : Int} (hcp : s.cp c = .wait nx)
    (h1 : nx ≤ h) (h2 : h ≤ s.cursor) (hall : ∀ x, nx ≤ x → x ≤ h → (s.pub x).isSome)
    (hend : h = s.cursor ∨ s.pub (h + 1) = none) :
    ∃ m : Nat, h + 1 = nx + m ∧ ∃ s',
      run k s ([.look c] ++ List.replicate (m + 1) (.scan c) ++
        ((List.replicate m [.advance c, .finish c]).flatten ++ [.advance c])) = some s' ∧
      s'.cp c = .wait (h + 1) ∧ s'.seq c = h ∧
      s'.dlog c = ((List.range m).map (fun i : Nat => (nx + (i : Int), decide (nx + (i : Int) = h)))).reverse ++ s.dlog c := by
  have hi := hr.inv hk hlim
  have hw := hi.cons c hc
  rw [hcp] at hw
  simp only [CInv] at hw
  have h0 := hi.seq_ge c hc
  refine ⟨(h + 1 - nx).toNat, by omega, ?_⟩
  set m := (h + 1 - nx).toNat with hm
  have r1 : run k s [.look c] = some { s with cp := upd s.cp c (.scan nx s.cursor nx) } := by
    simp only [run, step, hcp]
    rw [if_neg (by omega)]
  have r2 := scan_run (k := k) (s := { s with cp := upd s.cp c (.scan nx s.cursor nx) }) (c := c) (nx := nx) (hi := s.cursor)
    (h := h) m nx (by omega) (by simp) h2
    (by
      intro x a b
      have := (C23_is_available hk hr hlim (x := x) (by omega) (by omega)).2 c hc (by omega) (hall x a b)
      simpa [isAvailable] using this)
    (by
      by_cases he : h = s.cursor
      · exact Or.inl he
      · right
        intro hf
        rcases hend with hend | hend
        · exact he hend
        · have := (C23_is_available hk hr hlim (x := h + 1) (by omega) (by omega)).1 (by simpa [isAvailable] using hf)
          rw [hend] at this; cases this)
  obtain ⟨s', r3, r4, r5, r6, -⟩ := batch_run (k := k)
    (s := { ({ s with cp := upd s.cp c (.scan nx s.cursor nx) } : St V) with
      cp := upd (upd s.cp c (.scan nx s.cursor nx)) c (.batch nx h) }) (c := c) (av := h) m nx (by omega) (by simp)
  refine ⟨s', ?_, by rw [r5]; simp, by rw [r4]; simp, r6⟩
  rw [run_append, run_append, r1, Option.bind_some, r2, Option.bind_some, r3]

/-! ### What fails outside the restrictions -/

/-- **C22** fails while there is no gating processor: producers 0 and 1 own two sequences (0 and 2) of one slot of a ring of
two at the same time. -/
theorem C22_ungated_overlap :
    (run 1 (St.init 'i')
      ([.callNext 0 1] ++ List.replicate 3 (.pstep 0) ++ [.callNext 1 1] ++ List.replicate 3 (.pstep 1) ++
       [.publish 1 1, .callNext 1 1] ++ List.replicate 7 (.pstep 1))).map
      (fun s => (s.owner 0, s.owner 2, slotIdx 1 0 == slotIdx 1 2)) = some (some 0, some 1, true) := by decide +kernel

/-- The schedule of the next two theorems: producer 0 claims sequence 0 while no processor is registered; processor 7 is then
added and started; producer 1 publishes `'b'` as sequence 1 and `'c'` as sequence 2, in the slot of 0. -/
def lateGating : List (Act Char) :=
  [.callNext 0 1] ++ List.replicate 3 (.pstep 0) ++ [.addGating 7, .run 7] ++
  [.callNext 1 1] ++ List.replicate 3 (.pstep 1) ++ [.write 1 1 'b', .publish 1 1] ++
  [.callNext 1 1] ++ List.replicate 8 (.pstep 1) ++ [.write 1 2 'c', .publish 1 2]

/-- **C22** fails if a gating sequence is added while a claim is unpublished: the late write of producer 0 replaces the unread
event 2 and processor 7 handles `'x'` as event 2. -/
theorem C22_late_gating_corrupts :
    (run 1 (St.init 'i')
      (lateGating ++ [.look 7, .scan 7, .scan 7, .scan 7, .advance 7, .finish 7, .advance 7, .write 0 0 'x'])).map
      (fun s => (s.cp 7, s.pub 2, s.slot (slotIdx 1 2), s.gating)) =
    some (.handle 2 2, some 'c', 'x', [7]) := by decide +kernel

/-- The processor of `C22_late_gating_blocks` for ever after. -/
structure Stuck (s : St Char) : Prop where
  cur : s.cursor = 2
  av : s.avail (availIdx 1 2) ≠ availFlag 1 2
  pc : s.cp 7 = .wait 2 ∨ s.cp 7 = .scan 2 2 2 ∨ s.cp 7 = .batch 2 1
  log : ∀ e ∈ s.dlog 7, e.1 ≠ 2

/-- **C22** fails: if producer 0 finally publishes sequence 0, the flag of 2 is overwritten; event 2 is published but whatever
processor 7 does, it never handles it. -/
theorem C22_late_gating_blocks :
    ∃ s, run 1 (St.init 'i')
        (lateGating ++ [.write 0 0 'x', .publish 0 0, .look 7, .scan 7, .scan 7, .advance 7, .finish 7, .advance 7]) = some s ∧
      s.pub 2 = some 'c' ∧ s.gating = [7] ∧
      ∀ as : List (Act Char), (∀ a ∈ as, a = .look 7 ∨ a = .scan 7 ∨ a = .advance 7 ∨ a = .finish 7 ∨ a = .throw 7) →
        ∀ s', run 1 s as = some s' → ∀ e ∈ s'.dlog 7, e.1 ≠ 2 := by
  have hstep : ∀ (s s' : St Char) (a : Act Char), Stuck s →
      (a = .look 7 ∨ a = .scan 7 ∨ a = .advance 7 ∨ a = .finish 7 ∨ a = .throw 7) → step 1 s a = some s' → Stuck s' := by
    intro s s' a ⟨h1, h2, h3, h4⟩ ha hs
    rcases ha with rfl | rfl | rfl | rfl | rfl <;> rcases h3 with h3 | h3 | h3 <;>
      simp [step, h3, h1] at hs
    · subst hs; exact ⟨rfl, h2, by simp, h4⟩
    · rw [if_neg h2] at hs; cases hs; exact ⟨rfl, h2, by simp, h4⟩
    · subst hs; exact ⟨rfl, h2, by simp, h4⟩
  have hrun : ∀ (as : List (Act Char)), (∀ a ∈ as, a = .look 7 ∨ a = .scan 7 ∨ a = .advance 7 ∨ a = .finish 7 ∨ a = .throw 7) →
      ∀ s s', Stuck s → run 1 s as = some s' → Stuck s' := by
    intro as
    induction as with
    | nil => intro _ s s' h hs; cases hs; exact h
    | cons a as ih =>
      intro ha s s' h hs
      simp only [run] at hs
      cases hst : step 1 s a with
      | none => rw [hst] at hs; cases hs
      | some t =>
        rw [hst] at hs
        exact ih (fun b hb => ha b (List.mem_cons_of_mem _ hb)) t s' (hstep s t a h (ha a List.mem_cons_self) hst) hs
  have hx : ((run 1 (St.init 'i')
        (lateGating ++ [.write 0 0 'x', .publish 0 0, .look 7, .scan 7, .scan 7, .advance 7, .finish 7, .advance 7])).map
        (fun s => ((s.cursor, s.avail (availIdx 1 2), s.cp 7), s.dlog 7, s.pub 2, s.gating))) =
      some ((2, 0, .wait 2), [(1, true)], some 'c', [7]) := by decide +kernel
  obtain ⟨s, hs, he⟩ := Option.map_eq_some_iff.mp hx
  simp only [Prod.mk.injEq] at he
  obtain ⟨⟨e1, e2, e3⟩, e4, e5, e6⟩ := he
  refine ⟨s, hs, e5, e6, fun as ha s' hs' => ?_⟩
  exact (hrun as ha s s' ⟨e1, by rw [e2]; decide +kernel, Or.inl e3, by simp [e4]⟩ hs').log

/-- **C23** fails while there is no gating processor: sequence 2 is published last by the cursor but its flag is lost. -/
theorem C23_ungated_flag_lost :
    (run 1 (St.init 'i')
      ([.callNext 0 1] ++ List.replicate 3 (.pstep 0) ++ [.callNext 1 1] ++ List.replicate 3 (.pstep 1) ++
       [.publish 1 1, .callNext 1 1] ++ List.replicate 7 (.pstep 1) ++ [.write 1 2 'c', .publish 1 2, .publish 0 0])).map
      (fun s => (s.pub 2, isAvailable 1 s.avail 2)) = some (some 'c', false) := by decide +kernel

/-! ### The hypotheses are met -/

/-- Reachability of a checked schedule. -/
def okAll (k : Nat) (s : St V) : List (Act V) → Prop
  | [] => True
  | a :: as => OkAct s a ∧ ∀ s', step k s a = some s' → okAll k s' as

theorem reach_run {k : Nat} {v : V} {s s' : St V} (as : List (Act V)) (h : Reach k v s) (hok : okAll k s as)
    (hs : run k s as = some s') : Reach k v s' := by
  induction as generalizing s with
  | nil => cases hs; exact h
  | cons a as ih =>
    simp only [run] at hs
    cases hst : step k s a with
    | none => rw [hst] at hs; cases hs
    | some t =>
      rw [hst] at hs
      exact ih (h.step hok.1 hst) (hok.2 t hst) hs

/-- In a call of `try_next`. -/
def PPc.isTry : PPc → Bool
  | .tLoad _ | .tCache _ _ | .tScan _ _ _ _ | .tSet _ _ _ | .tCas _ _ => true
  | _ => false

/-- Neither a call of `try_next` nor a late registration. -/
def Act.plain : Act V → Bool
  | .callTry _ _ | .addGating _ => false
  | _ => true

theorem notTry_step {k : Nat} {s s' : St V} {a : Act V} (h : ∀ p, (s.pp p).isTry = false) (ha : a.plain = true)
    (hs : step k s a = some s') : ∀ p, (s'.pp p).isTry = false := by
  have key : ∀ p pc, PPc.isTry pc = false → ∀ q, (upd s.pp p pc q).isTry = false := by
    intro p pc hpc q; rw [upd_apply]; split
    · exact hpc
    · exact h q
  cases a with
  | callTry p n => simp [Act.plain] at ha
  | addGating c => simp [Act.plain] at ha
  | callNext p n =>
    simp only [MRing.step] at hs
    split at hs
    · cases hs; exact key p _ rfl
    · cases hs
  | pstep p =>
    have hp := h p
    simp only [MRing.step, MRing.pstep] at hs
    (repeat' split at hs) <;> (try cases hs) <;> (try (rename_i he; rw [he] at hp; cases hp)) <;>
      (try (rename_i he hc; rw [he] at hp; cases hp)) <;> exact key p _ rfl
  | weak p =>
    have hp := h p
    simp only [MRing.step, MRing.weak] at hs
    split at hs
    · cases hs; exact key p _ rfl
    · rename_i he; rw [he] at hp; cases hp
    · cases hs
  | _ =>
    simp only [MRing.step] at hs
    (repeat' split at hs) <;> (try cases hs) <;> exact h

/-- Schedules without `try_next` and later registrations satisfy the restrictions. -/
theorem okAll_plain {k : Nat} (as : List (Act V)) (s : St V) (h : ∀ p, (s.pp p).isTry = false)
    (ha : as.all Act.plain = true) : okAll k s as := by
  induction as generalizing s with
  | nil => trivial
  | cons a as ih =>
    simp only [List.all_cons, Bool.and_eq_true] at ha
    refine ⟨?_, fun s' hs => ih s' (notTry_step h ha.1 hs) ha.2⟩
    cases a with
    | addGating c => simp [Act.plain] at ha
    | pstep p => intro n cur he; have := h p; rw [he] at this; cases this
    | _ => trivial

/-- Two producers and one processor on a ring of two, once around. -/
def demo : List (Act Char) :=
  [.addGating 7, .run 7, .callNext 0 1] ++ List.replicate 3 (.pstep 0) ++ [.callNext 1 1] ++ List.replicate 3 (.pstep 1) ++
  [.write 1 1 'b', .publish 1 1, .write 0 0 'a', .publish 0 0, .look 7, .scan 7, .scan 7, .scan 7, .advance 7, .finish 7,
   .advance 7]

example : ∃ s, Reach 1 'i' s ∧ s.cursor = 1 ∧ 7 ∈ s.gating ∧ s.cp 7 = .handle 1 1 ∧ s.pub 1 = some 'b' := by
  have hx : ((run 1 (St.init 'i') demo).map (fun s => (s.cursor, s.gating, s.cp 7, s.pub 1))) =
      some (1, [7], .handle 1 1, some 'b') := by decide +kernel
  obtain ⟨s, hs, he⟩ := Option.map_eq_some_iff.mp hx
  simp only [Prod.mk.injEq] at he
  obtain ⟨e1, e2, e3, e4⟩ := he
  refine ⟨s, reach_run demo .init ?_ hs, e1, by simp [e2], e3, e4⟩
  refine ⟨⟨fun _ => rfl, rfl⟩, fun s' hs' => okAll_plain _ _ ?_ (by decide)⟩
  simp only [step] at hs'
  cases hs'
  exact fun _ => rfl

end Verif.MRing
