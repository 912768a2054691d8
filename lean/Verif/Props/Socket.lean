import Verif.Model.Socket

/-! Properties of sending and receiving messages over sockets (C48, C49). -/

namespace Verif.Socket

/-! ### C48 -/

theorem put_spec (buffer : List Byte) (n : Nat) (hn : n ≤ buffer.length) (answers : List WAns) :
    ∃ m, n ≤ m ∧ m ≤ buffer.length ∧ (put buffer n (buffer.take n) answers).1 = buffer.take m ∧
      ((put buffer n (buffer.take n) answers).2 = .returned ↔ m = buffer.length) := by
  induction answers generalizing n with
  | nil =>
    unfold put
    split
    · exact ⟨n, Nat.le_refl _, hn, rfl, by simp; omega⟩
    · exact ⟨n, Nat.le_refl _, hn, rfl, by simp; omega⟩
  | cons a rest ih =>
    cases a with
    | accepted k =>
      unfold put
      split
      · rename_i hlt
        have e : buffer.take n ++ (buffer.drop n).take (min k (buffer.length - n)) =
            buffer.take (n + min k (buffer.length - n)) := by rw [List.take_add]
        simp only [e]
        obtain ⟨m, h1, h2, h3, h4⟩ := ih (n + min k (buffer.length - n)) (by omega)
        exact ⟨m, by omega, h2, h3, h4⟩
      · exact ⟨n, Nat.le_refl _, hn, rfl, by simp; omega⟩
    | error e =>
      unfold put
      split
      · split
        · exact ih n hn
        · exact ⟨n, Nat.le_refl _, hn, rfl, by simp; omega⟩
      · exact ⟨n, Nat.le_refl _, hn, rfl, by simp; omega⟩

/-- **C48**: for every message and every sequence of partial writes and errors, what the socket has accepted is at any time an initial
segment of the message (nothing is reordered or repeated), and `putMessageData` returns normally exactly if that is the whole
message. -/
theorem C48_put_message (buffer : List Byte) (answers : List WAns) :
    (putMessageData buffer answers).1 <+: buffer ∧
    ((putMessageData buffer answers).2 = .returned ↔ (putMessageData buffer answers).1 = buffer) := by
  obtain ⟨m, _, h2, h3, h4⟩ := put_spec buffer 0 (by omega) answers
  rw [List.take_zero] at h3 h4
  unfold putMessageData
  refine ⟨by rw [h3]; exact List.take_prefix _ _, ?_⟩
  rw [h4, h3]
  constructor
  · rintro rfl; exact List.take_length
  · intro h
    have := congrArg List.length h
    rw [List.length_take] at this
    omega

/-- Interruptions and `EAGAIN` change nothing: the same bytes are sent with the same result. -/
theorem C48_temporary_errors (buffer : List Byte) (answers : List WAns) :
    putMessageData buffer answers =
      putMessageData buffer (answers.filter (fun a => decide (a ≠ .error .EINTR ∧ a ≠ .error .EAGAIN))) := by
  have key : ∀ n wire, put buffer n wire answers =
      put buffer n wire (answers.filter (fun a => decide (a ≠ .error .EINTR ∧ a ≠ .error .EAGAIN))) := by
    induction answers with
    | nil => intro n wire; rfl
    | cons a rest ih =>
      intro n wire
      have hdone : ∀ l, ¬ n < buffer.length → put buffer n wire l = (wire, .returned) := by
        intro l hn
        cases l with
        | nil => simp [put, hn]
        | cons b l => cases b <;> simp [put, hn]
      by_cases hlt : n < buffer.length
      · by_cases ha : a = .error .EINTR ∨ a = .error .EAGAIN
        · have hf : (a :: rest).filter (fun a => decide (a ≠ .error .EINTR ∧ a ≠ .error .EAGAIN)) =
              rest.filter (fun a => decide (a ≠ .error .EINTR ∧ a ≠ .error .EAGAIN)) := by
            rw [List.filter_cons_of_neg]
            rcases ha with rfl | rfl <;> decide
          rw [hf, ← ih]
          rcases ha with rfl | rfl <;> simp [put, hlt, writeError]
        · have hf : (a :: rest).filter (fun a => decide (a ≠ .error .EINTR ∧ a ≠ .error .EAGAIN)) =
              a :: rest.filter (fun a => decide (a ≠ .error .EINTR ∧ a ≠ .error .EAGAIN)) := by
            rw [List.filter_cons_of_pos]
            simpa [not_or] using ha
          rw [hf]
          cases a with
          | accepted k => simp only [put, hlt, if_true]; exact ih _ _
          | error e =>
            simp only [put, hlt, if_true]
            cases he : writeError e with
            | none => exact ih _ _
            | some x => rfl
      · rw [hdone _ hlt, hdone _ hlt]
  exact key 0 []

/-- A permanent error ends the call with an exception; which one is fixed by the error. -/
theorem C48_permanent_errors (e : Errno) : writeError e = none ↔ e = .EINTR ∨ e = .EAGAIN := by
  cases e <;> simp [writeError]

theorem C48_example :
    putMessageData [1, 2, 3, 4, 5] [.error .EINTR, .accepted 2, .error .EAGAIN, .accepted 0, .accepted 9] = ([1, 2, 3, 4, 5], .returned) ∧
    putMessageData [1, 2, 3, 4, 5] [.accepted 2, .error .EPIPE, .accepted 3] = ([1, 2], .threw .domain) := by decide +kernel

/-! ### C49 -/

/-- What one call of `getMessageData` may do. -/
def GSpec (size : Nat) (acc stream : List Byte) : GRes × List Byte × List RAns → Prop
  | (.got bytes reset, stream', _) => ∃ t, stream = t ++ stream' ∧ bytes = acc ++ t ∧ bytes.length ≤ size ∧
        (reset = false → bytes.length < size → stream' = [])
  | (.threw _, stream', _) => ∃ t, stream = t ++ stream'
  | (.waiting, stream', _) => ∃ t, stream = t ++ stream'

theorem getLoop_spec (size : Nat) (acc stream : List Byte) (answers : List RAns) (hacc : acc.length ≤ size) :
    GSpec size acc stream (getLoop size acc stream answers) := by
  induction answers generalizing acc stream with
  | nil =>
    unfold getLoop
    by_cases hlt : acc.length < size
    · rw [if_pos hlt]; exact ⟨[], rfl⟩
    · rw [if_neg hlt]; exact ⟨[], rfl, by simp, hacc, fun _ h => by contradiction⟩
  | cons a rest ih =>
    cases a with
    | data k =>
      unfold getLoop
      by_cases hlt : acc.length < size
      · rw [if_pos hlt]
        simp only
        generalize hk : min (max k 1) (min (size - acc.length) stream.length) = m
        by_cases hm : m = 0
        · rw [if_pos hm]
          refine ⟨[], rfl, by simp, hacc, fun _ _ => ?_⟩
          apply List.eq_nil_of_length_eq_zero
          omega
        · rw [if_neg hm]
          have := ih (acc ++ stream.take m) (stream.drop m) (by rw [List.length_append, List.length_take]; omega)
          generalize getLoop size (acc ++ stream.take m) (stream.drop m) rest = r at this ⊢
          obtain ⟨g, st, an⟩ := r
          cases g with
          | got bytes reset =>
            obtain ⟨t, h1, h2, h3, h4⟩ := this
            exact ⟨stream.take m ++ t, by rw [List.append_assoc, ← h1, List.take_append_drop], by rw [h2, List.append_assoc], h3, h4⟩
          | threw e =>
            obtain ⟨t, h1⟩ := this
            exact ⟨stream.take m ++ t, by rw [List.append_assoc, ← h1, List.take_append_drop]⟩
          | waiting =>
            obtain ⟨t, h1⟩ := this
            exact ⟨stream.take m ++ t, by rw [List.append_assoc, ← h1, List.take_append_drop]⟩
      · rw [if_neg hlt]
        exact ⟨[], rfl, by simp, hacc, fun _ h => by contradiction⟩
    | error e =>
      unfold getLoop
      by_cases hlt : acc.length < size
      · rw [if_pos hlt]
        cases he : readError e with
        | throws x => exact ⟨[], rfl⟩
        | retry => exact ih acc stream hacc
        | asEnd => exact ⟨[], rfl, by simp, hacc, fun h => by cases h⟩
      · rw [if_neg hlt]
        exact ⟨[], rfl, by simp, hacc, fun _ h => by contradiction⟩

theorem resize_length (s : Str) (n : Nat) : (s.resize n).content.length = n := by
  simp [Str.resize]; omega

theorem resize_take (s : Str) (n : Nat) (h : n ≤ s.content.length) : (s.resize n).content = s.content.take n := by
  simp [Str.resize, Nat.sub_eq_zero_of_le h]

/-- What `recvMessage` may do when the peer has sent `all`. -/
def MSpec (all : List Byte) : MRes → Prop
  | .message r reset => r.content <+: all ∧ (reset = false → r.content = all)
  | .threw _ r => r.content <+: all
  | .waiting => True
  | .outOfBounds => False

/-- The text received so far stands at the front of the string. -/
theorem recvLoop_spec (grow : Nat → Nat → Nat) (hg : ∀ c n, c ≤ grow c n ∧ n ≤ grow c n) (all : List Byte)
    (fuel : Nat) (s : Str) (dataRead : Nat) (broken : Bool) (stream : List Byte) (answers : List RAns)
    (hc : dataRead + 1 < s.cap) (hs : s.content.length = dataRead) (hall : s.content ++ stream = all) :
    MSpec all (recvLoop grow fuel s dataRead broken stream answers) := by
  induction fuel generalizing s dataRead broken stream answers with
  | zero => trivial
  | succ fuel ih =>
    unfold recvLoop
    have hcap : (s.resize s.cap).cap = s.cap := rfl
    simp only [hcap]
    rw [if_neg (by omega)]
    have hpre : (s.resize s.cap).content.take dataRead = s.content := by
      have : (s.resize s.cap).content = s.content ++ List.replicate (s.cap - s.content.length) 0 := by
        simp only [Str.resize]
        rw [List.take_of_length_le (by omega)]
      rw [this, ← hs]
      exact List.take_left' rfl
    have hlen : (s.resize s.cap).content.length = s.cap := resize_length s s.cap
    have hspec := getLoop_spec (s.cap - 1 - dataRead) [] stream answers (by simp)
    generalize getLoop (s.cap - 1 - dataRead) [] stream answers = r at hspec ⊢
    obtain ⟨g, st', an'⟩ := r
    cases g with
    | waiting => trivial
    | threw e =>
      show ((s.resize s.cap).resize dataRead).content <+: all
      rw [resize_take _ _ (by omega), hpre]
      exact ⟨stream, hall⟩
    | got bytes reset =>
      obtain ⟨t, h1, h2, h3, h4⟩ := hspec
      rw [List.nil_append] at h2
      subst h2
      have hst : (store (s.resize s.cap).content dataRead bytes).take (dataRead + bytes.length) = s.content ++ bytes := by
        unfold store
        rw [hpre]
        exact List.take_left' (by simp [hs])
      have hstl : dataRead + bytes.length ≤ (store (s.resize s.cap).content dataRead bytes).length := by
        simp only [store, List.length_append, List.length_take, List.length_drop, hlen]; omega
      have hres : ∀ c, (Str.resize ⟨store (s.resize s.cap).content dataRead bytes, c⟩ (dataRead + bytes.length)).content =
          s.content ++ bytes := by
        intro c
        rw [resize_take _ _ hstl]; exact hst
      simp only
      by_cases h0 : bytes.length = 0
      · rw [if_pos h0]
        refine ⟨?_, ?_⟩
        · show (Str.resize _ _).content <+: all
          rw [hres]
          exact ⟨st', by rw [List.append_assoc, ← h1, hall]⟩
        · intro hb
          simp only [Bool.or_eq_false_iff] at hb
          show (Str.resize _ _).content = all
          rw [hres]
          have := h4 hb.2 (by omega)
          rw [this, List.append_nil] at h1
          rw [← h1, hall]
      · rw [if_neg h0]
        have g := hg s.cap (s.cap * 3 / 2 + 10)
        apply ih
        · show dataRead + bytes.length + 1 < grow s.cap (s.cap * 3 / 2 + 10)
          omega
        · exact resize_length _ _
        · show (Str.resize _ _).content ++ st' = all
          rw [hres, List.append_assoc, ← h1, hall]

/-- **C49**: whatever the sizes of the reads, the temporary errors, the previous content of the string, its capacity (at least 2; it is at
least 15 in libstdc++) and the growth policy of the library: `recvMessage` never writes outside the string, and if it returns
without a broken connection the string is exactly what the peer sent.  If the connection broke, or an exception is thrown, the
string is an initial segment of it.
Missing: a broken connection is not reported, `C49_violation_truncated`. -/
theorem C49_receive_partial (grow : Nat → Nat → Nat) (hg : ∀ c n, c ≤ grow c n ∧ n ≤ grow c n) (fuel : Nat) (s : Str) (hc : 2 ≤ s.cap)
    (stream : List Byte) (answers : List RAns) :
    recvMessage grow fuel s stream answers ≠ .outOfBounds ∧
    (∀ r, recvMessage grow fuel s stream answers = .message r false → r.content = stream) ∧
    (∀ r b, recvMessage grow fuel s stream answers = .message r b → r.content <+: stream) ∧
    (∀ r e, recvMessage grow fuel s stream answers = .threw e r → r.content <+: stream) := by
  have h := recvLoop_spec grow hg stream fuel { s with content := [] } 0 false stream answers (show 0 + 1 < s.cap by omega) rfl rfl
  unfold recvMessage
  refine ⟨?_, ?_, ?_, ?_⟩
  · intro he; rw [he] at h; exact h
  · intro r he; rw [he] at h; exact h.2 rfl
  · intro r b he; rw [he] at h; exact h.1
  · intro r e he; rw [he] at h; exact h

/-- The connection is broken only if the system said so. -/
theorem getLoop_not_reset (size : Nat) (acc stream : List Byte) (answers : List RAns)
    (ha : ∀ e, .error e ∈ answers → readError e = .retry) :
    (∀ b st an, getLoop size acc stream answers ≠ (.got b true, st, an)) ∧ (∀ e st an, getLoop size acc stream answers ≠ (.threw e, st, an)) ∧
    (∀ r st an, getLoop size acc stream answers = (r, st, an) → ∀ e, .error e ∈ an → readError e = .retry) := by
  induction answers generalizing acc stream with
  | nil =>
    unfold getLoop
    split <;> refine ⟨by simp, by simp, ?_⟩ <;> intro r st an he <;> cases he <;> simp
  | cons a rest ih =>
    have ih' := fun acc stream => ih acc stream (fun e he => ha e (List.mem_cons_of_mem _ he))
    cases a with
    | data k =>
      unfold getLoop
      split
      · simp only
        split
        · refine ⟨by simp, by simp, ?_⟩
          intro r st an he
          cases he
          exact fun e he => ha e (List.mem_cons_of_mem _ he)
        · exact ih' _ _
      · refine ⟨by simp, by simp, ?_⟩
        intro r st an he
        cases he
        exact ha
    | error e =>
      unfold getLoop
      split
      · rw [ha e List.mem_cons_self]
        exact ih' _ _
      · refine ⟨by simp, by simp, ?_⟩
        intro r st an he
        cases he
        exact ha

/-- **C49** without permanent errors: `recvMessage` gives exactly what was sent whenever it returns, and it never throws. -/
theorem C49_receive_exact (grow : Nat → Nat → Nat) (hg : ∀ c n, c ≤ grow c n ∧ n ≤ grow c n) (fuel : Nat) (s : Str) (hc : 2 ≤ s.cap)
    (stream : List Byte) (answers : List RAns) (ha : ∀ e, .error e ∈ answers → e = .EINTR ∨ e = .ETIMEDOUT ∨ e = .EAGAIN) :
    recvMessage grow fuel s stream answers = .waiting ∨
    ∃ r, recvMessage grow fuel s stream answers = .message r false ∧ r.content = stream := by
  have ha' : ∀ e, .error e ∈ answers → readError e = .retry := by
    intro e he
    rcases ha e he with rfl | rfl | rfl <;> rfl
  have key : ∀ fuel (s : Str) dataRead stream answers, (∀ e, .error e ∈ answers → readError e = .retry) →
      (∀ r, recvLoop grow fuel s dataRead false stream answers ≠ .message r true) ∧
      (∀ r e, recvLoop grow fuel s dataRead false stream answers ≠ .threw e r) := by
    intro fuel
    induction fuel with
    | zero => intro s d st an _; simp [recvLoop]
    | succ fuel ih =>
      intro s d st an hr
      obtain ⟨g1, g2, g3⟩ := getLoop_not_reset ((s.resize s.cap).cap - 1 - d) [] st an hr
      unfold recvLoop
      simp only
      split
      · simp
      split
      · simp
      · rename_i heq; exact absurd heq (g2 _ _ _)
      · rename_i b reset st' an' heq
        cases reset with
        | true => exact absurd heq (g1 _ _ _)
        | false =>
          split
          · simp
          · exact ih _ _ _ _ (g3 _ _ _ heq)
  obtain ⟨k1, k2⟩ := key fuel { s with content := [] } 0 stream answers ha'
  obtain ⟨p1, p2, -, -⟩ := C49_receive_partial grow hg fuel s hc stream answers
  cases hres : recvMessage grow fuel s stream answers with
  | waiting => exact Or.inl rfl
  | outOfBounds => exact absurd hres p1
  | threw e r => exact absurd hres (k2 r e)
  | message r b =>
    cases b with
    | true => exact absurd hres (k1 r)
    | false => exact Or.inr ⟨r, rfl, p2 r hres⟩

/-- Library behaviour used in the examples: `reserve` gives what is asked for, at least double. -/
def libGrow (c n : Nat) : Nat := max c (max n (2 * c))

/-- **C49** fails: if the connection breaks (`ECONNRESET`) in the middle of a message, `recvMessage` returns normally with the part
received; nothing tells the caller. -/
theorem C49_violation_truncated :
    recvMessage libGrow 9 ⟨[], 15⟩ [1, 2, 3, 4] [.data 2, .error .ECONNRESET, .error .ECONNRESET] = .message ⟨[1, 2], 32⟩ true := by
  decide +kernel

/-- Strings of capacity 1 and 0 (allowed by the standard for an empty string, not found in libstdc++ or libc++): with 1 nothing is ever
read, with 0 the size wraps around. -/
theorem C49_violation_small_capacity (grow : Nat → Nat → Nat) (fuel : Nat) (content stream : List Byte) (answers : List RAns) :
    recvMessage grow (fuel + 1) ⟨content, 1⟩ stream answers = .message ⟨[], 1⟩ false ∧
    recvMessage grow (fuel + 1) ⟨content, 0⟩ stream answers = .outOfBounds := by
  constructor
  · have : ∀ st an, getLoop 0 [] st an = (.got [] false, st, an) := by
      intro st an
      cases an with
      | nil => simp [getLoop]
      | cons a an => cases a <;> simp [getLoop]
    simp [recvMessage, recvLoop, Str.resize, this, store]
  · simp [recvMessage, recvLoop, Str.resize]

/-- Sixty bytes in pieces, through three growths of the string. -/
theorem C49_example :
    recvMessage libGrow 9 ⟨[7, 7, 7], 15⟩ (List.replicate 60 5)
      [.data 3, .error .EINTR, .data 100, .error .EAGAIN, .data 4, .data 100, .data 100, .data 1, .data 1] =
      .message ⟨List.replicate 60 5, 128⟩ false := by decide +kernel

/-- The two together: what `sendMessage` puts on the wire is what `recvMessage` delivers, if both return and the connection does
not break. -/
theorem C49_send_then_receive (grow : Nat → Nat → Nat) (hg : ∀ c n, c ≤ grow c n ∧ n ≤ grow c n) (fuel : Nat) (s : Str) (hc : 2 ≤ s.cap)
    (msg wire : List Byte) (wa : List WAns) (ra : List RAns) (r : Str)
    (hw : putMessageData msg wa = (wire, .returned)) (hr : recvMessage grow fuel s wire ra = .message r false) :
    r.content = msg := by
  have h1 := (C48_put_message msg wa).2.mp (by rw [hw])
  rw [hw] at h1
  simp only at h1
  subst h1
  exact (C49_receive_partial grow hg fuel s hc wire ra).2.1 r hr

end Verif.Socket
