import Mathlib.Data.Int.ModEq

/-!
Arithmetic of the disruptor ring (D4 = high_performance/modules/high_performance/include/klepsydra/high_performance/
disruptor4cpp).  `int` is a 32-bit and `int64_t` a 64-bit two's complement integer, as on every platform the project
supports.  `BufferSize` is `2 ^ k`.
-/

namespace Verif.Disr

/-- Conversion of an `int64_t` to `int` (implicit at D4/multi_producer_sequencer.h:128 and 174 through the parameter type at
233, explicit at 255 and 258). -/
def toInt32 (x : Int) : Int := (BitVec.ofInt 32 x).toInt

/-- `util::log2` (D4/utils/util.h:93-97); `none` = the constant expression throws, so that the program is ill-formed. -/
def log2 (v : Nat) : Option Nat :=
  if h : 0 < v then (if v / 2 = 1 then some 1 else (log2 (v / 2)).map (· + 1)) else none
termination_by v
decreasing_by omega

/-- The size check of the ring (D4/ring_buffer.h:71): `(BufferSize & (~BufferSize + 1)) == BufferSize` on `size_t`. -/
def sizeOk (b : BitVec 64) : Bool := (b &&& (~~~b + 1)) == b

/-- `ring_buffer::operator[]` (D4/ring_buffer.h:103-111): `seq & (BufferSize - 1)` on `int64_t`. -/
def slotIdx (k : Nat) (s : Int) : Nat := (BitVec.ofInt 64 s &&& BitVec.ofInt 64 ((2 : Int) ^ k - 1)).toNat

/-- `calculate_index` (D4/multi_producer_sequencer.h:258): `((int) seq) & INDEX_MASK`, INDEX_MASK (230) is
`static_cast<int>(BufferSize) - 1`. -/
def availIdx (k : Nat) (s : Int) : Nat := (BitVec.ofInt 32 s &&& BitVec.ofInt 32 ((2 : Int) ^ k - 1)).toNat

/-- `calculate_availability_flag` (D4/multi_producer_sequencer.h:253-256): `(int) (((uint64_t) seq) >> INDEX_SHIFT)`,
with INDEX_SHIFT = `log2(BufferSize)` = `k` (`Disr.log2_pow`). -/
def availFlag (k : Nat) (s : Int) : Int := ((BitVec.ofInt 64 s >>> k).setWidth 32).toInt

/-- `util::get_minimum_sequence(sequences, minimum)` (D4/utils/util.h:82-91) of the values read. -/
def minSeq (vals : List Int) (m : Int) : Int := vals.foldl (fun m v => if v < m then v else m) m

/-- `has_available_capacity(required, cursor_value)` of the multi producer sequencer, run without interruption
(D4/multi_producer_sequencer.h:233-244).  `cv` is the `int` parameter.  The `int` addition at 235 is modelled as wrapping
around; in C++ its overflow is undefined.  Returns the result and the new gating cache. -/
def hasCapacity (B : Int) (cache : Int) (gating : List Int) (n cv : Int) : Bool × Int :=
  let wrap := toInt32 (cv + n) - B
  if wrap > cache ∨ cache > cv then
    let m := minSeq gating cv
    (decide (¬ wrap > m), m)
  else (true, cache)

/-- `try_next(n)` of the multi producer sequencer, run without interruption (169-183), `n ≥ 1`: the new cursor (= the claimed
highest sequence) or `none` for `insufficient_capacity_exception`, and the new cache. -/
def tryNextM (B : Int) (cursor cache : Int) (gating : List Int) (n : Int) : Option Int × Int :=
  let r := hasCapacity B cache gating n (toInt32 cursor)
  (if r.1 then some (cursor + n) else none, r.2)

/-- `remaining_capacity()` (multi: 185-190 with `cur` the cursor; single: 182-188 of D4/single_producer_sequencer.h with `cur`
= `next_value_`), run without interruption. -/
def remaining (B cur : Int) (gating : List Int) : Int := B - (cur - minSeq gating cur)

/-- `get_highest_published_sequence(lo, hi)` (multi, 215-222) of the availability buffer `av` (index to flag). -/
def highestPublished (k : Nat) (av : Nat → Int) (lo : Int) : Nat → Int
  | 0 => lo - 1
  | m + 1 => if av (availIdx k lo) = availFlag k lo then highestPublished k av (lo + 1) m else lo - 1

/-- `is_available(seq)` (208-213). -/
def isAvailable (k : Nat) (av : Nat → Int) (s : Int) : Bool := av (availIdx k s) == availFlag k s

end Verif.Disr
