import Verif.Model.SocketScan
import Verif.Props.Socket

/-!
`getMessageData` with a function that looks for the end of a message, and the descriptor 0 (C49).
-/

namespace Verif.Socket

/-- With a function that never sees an end it is the loop `recvMessage` uses. -/
theorem C49_scan_never (size : Nat) (acc stream : List Byte) (answers : List RAns) :
    getScan (fun _ => false) size acc stream answers = getLoop size acc stream answers := by
  induction answers generalizing acc stream with
  | nil => rfl
  | cons a rest ih =>
    cases a with
    | data k =>
      unfold getScan getLoop
      split
      · simp only
        split
        · rfl
        · simp only [Bool.false_eq_true, if_false]; exact ih _ _
      · rfl
    | error e =>
      unfold getScan getLoop
      split
      · split
        · next h => rw [h]
        · next h => rw [h]; exact ih _ _
        · next h => rw [h]
      · rfl

/-- What a call with `scan` that has bytes `acc` already may do: it has taken `t` from the stream and nothing else; it returns with a full buffer, or
because `scan` saw the end in exactly these bytes, or at the end of the stream, or because the connection broke; and `scan` saw no end in anything shorter it was
shown. -/
def ScanSpec (scan : List Byte → Bool) (size : Nat) (acc stream : List Byte) : GRes × List Byte × List RAns → Prop
  | (.got bytes reset, stream', _) => ∃ t, stream = t ++ stream' ∧ bytes = acc ++ t ∧ bytes.length ≤ size ∧
        (reset = false → bytes.length = size ∨ (t ≠ [] ∧ scan bytes = true) ∨ stream' = []) ∧ (reset = true → bytes.length < size)
  | (.threw _, stream', _) => ∃ t, stream = t ++ stream'
  | (.waiting, stream', _) => ∃ t, stream = t ++ stream' ∧ (acc ++ t).length < size

theorem getScan_spec (scan : List Byte → Bool) (size : Nat) (acc stream : List Byte) (answers : List RAns) (hacc : acc.length ≤ size) :
    ScanSpec scan size acc stream (getScan scan size acc stream answers) := by
  induction answers generalizing acc stream with
  | nil =>
    unfold getScan
    by_cases hlt : acc.length < size
    · rw [if_pos hlt]; exact ⟨[], rfl, by simpa using hlt⟩
    · rw [if_neg hlt]; exact ⟨[], rfl, by simp, hacc, fun _ => .inl (by omega), by simp⟩
  | cons a rest ih =>
    cases a with
    | data k =>
      unfold getScan
      by_cases hlt : acc.length < size
      · rw [if_pos hlt]
        simp only
        generalize hk : min (max k 1) (min (size - acc.length) stream.length) = m
        have hlen : (acc ++ stream.take m).length ≤ size := by rw [List.length_append, List.length_take]; omega
        by_cases hm : m = 0
        · rw [if_pos hm]
          refine ⟨[], rfl, by simp, hacc, fun _ => .inr (.inr ?_), by simp⟩
          apply List.eq_nil_of_length_eq_zero
          omega
        · rw [if_neg hm]
          split
          · next hsc =>
            refine ⟨stream.take m, (List.take_append_drop m stream).symm, rfl, hlen, fun _ => .inr (.inl ⟨?_, hsc⟩), by simp⟩
            intro h0
            have := congrArg List.length h0
            simp only [List.length_take, List.length_nil] at this
            omega
          · have := ih (acc ++ stream.take m) (stream.drop m) hlen
            generalize getScan scan size (acc ++ stream.take m) (stream.drop m) rest = r at this ⊢
            obtain ⟨g, st, an⟩ := r
            cases g with
            | got bytes reset =>
              obtain ⟨t, h1, h2, h3, h4, h5⟩ := this
              refine ⟨stream.take m ++ t, by rw [List.append_assoc, ← h1, List.take_append_drop], by rw [h2, List.append_assoc], h3, fun hr => ?_, h5⟩
              rcases h4 hr with h | ⟨h, h'⟩ | h
              · exact .inl h
              · exact .inr (.inl ⟨by simp [h], h'⟩)
              · exact .inr (.inr h)
            | threw e =>
              obtain ⟨t, h1⟩ := this
              exact ⟨stream.take m ++ t, by rw [List.append_assoc, ← h1, List.take_append_drop]⟩
            | waiting =>
              obtain ⟨t, h1, h2⟩ := this
              exact ⟨stream.take m ++ t, by rw [List.append_assoc, ← h1, List.take_append_drop], by rw [← List.append_assoc]; exact h2⟩
      · rw [if_neg hlt]
        exact ⟨[], rfl, by simp, hacc, fun _ => .inl (by omega), by simp⟩
    | error e =>
      unfold getScan
      by_cases hlt : acc.length < size
      · rw [if_pos hlt]
        cases he : readError e with
        | throws x => exact ⟨[], rfl⟩
        | retry => exact ih acc stream hacc
        | asEnd => exact ⟨[], rfl, by simp, hacc, by simp, fun _ => hlt⟩
      · rw [if_neg hlt]
        exact ⟨[], rfl, by simp, hacc, fun _ => .inl (by omega), by simp⟩

/-- **C49**, one call of `getMessageData` with any function that looks for the end, on any descriptor but 0: when it returns, the buffer holds the next bytes of
the stream, in order and without loss, at most as many as asked for; and it returns only with a full buffer, or at an end the function has seen in just these
bytes, or at the end of the stream, or on a broken connection. -/
theorem C49_get_message {fd : Int} (hfd : fd ≠ 0) (scan : List Byte → Bool) (size : Nat) (stream : List Byte) (answers : List RAns) {bytes rest : List Byte} {reset : Bool} {an : List RAns}
    (h : getMessageData fd scan size stream answers = (.got bytes reset, rest, an)) :
    stream = bytes ++ rest ∧ bytes.length ≤ size ∧ (reset = false → bytes.length = size ∨ (bytes ≠ [] ∧ scan bytes = true) ∨ rest = []) := by
  have hs := getScan_spec scan size [] stream answers (by simp)
  simp only [getMessageData, hfd, if_false] at h
  rw [h] at hs
  obtain ⟨t, h1, h2, h3, h4, _⟩ := hs
  rw [List.nil_append] at h2
  subst h2
  exact ⟨h1, h3, h4⟩

/-- **C49**: the messages a function can find are found: if every byte comes alone (the smallest reads), the call returns the shortest non-empty initial segment in which
`scan` sees an end, provided it fits into the buffer. -/
theorem C49_scan_finds_shortest (scan : List Byte → Bool) {size : Nat} (msg rest : List Byte) (n : Nat) (acc : List Byte) (hm : msg ≠ [])
    (hend : scan (acc ++ msg) = true) (hshort : ∀ p, p <+: msg → p ≠ [] → p ≠ msg → scan (acc ++ p) = false) (hsize : (acc ++ msg).length ≤ size) (hn : msg.length ≤ n) :
    (getScan scan size acc (msg ++ rest) (List.replicate n (.data 1))).1 = .got (acc ++ msg) false ∧
    (getScan scan size acc (msg ++ rest) (List.replicate n (.data 1))).2.1 = rest := by
  induction n generalizing acc msg with
  | zero => cases msg with | nil => exact absurd rfl hm | cons => simp at hn
  | succ n ih =>
    cases msg with
    | nil => exact absurd rfl hm
    | cons b msg =>
      rw [List.replicate_succ]
      simp only [List.length_append, List.length_cons] at hsize
      have hk : min (max 1 1) (min (size - acc.length) (b :: msg ++ rest).length) = 1 := by
        simp only [List.length_append, List.length_cons]; omega
      have hlt : acc.length < size := by omega
      have e : ∀ L, getScan scan size acc (b :: msg ++ rest) (.data 1 :: L) =
          if scan (acc ++ [b]) then (.got (acc ++ [b]) false, msg ++ rest, L) else getScan scan size (acc ++ [b]) (msg ++ rest) L := by
        intro L
        conv => lhs; unfold getScan
        rw [if_pos hlt]
        simp only [hk, Nat.one_ne_zero, if_false]
        rfl
      rw [e]
      by_cases hmsg : msg = []
      · subst hmsg
        simp only [hend, if_true]
        simp
      · have hf : scan (acc ++ [b]) = false := hshort [b] ⟨msg, rfl⟩ (by simp) (by simpa using fun h => hmsg h)
        simp only [hf, Bool.false_eq_true, if_false]
        have := ih msg (acc ++ [b]) hmsg (by simpa using hend) ?_ (by simp only [List.length_append, List.length_cons, List.length_nil]; omega) (by simpa using hn)
        · simpa using this
        · intro p hp hp0 hpm
          have := hshort (b :: p) (by simpa using hp) (by simp) (by simpa using hpm)
          simpa using this

/-- A reachable case: lines of a text, the end is a line feed. -/
theorem C49_scan_example :
    getMessageData 5 (fun l => l.getLast? == some 10) 8 [72, 105, 10, 66, 121, 101, 10] [.data 1, .error .EINTR, .data 1, .data 1, .data 4] =
      (.got [72, 105, 10] false, [66, 121, 101, 10], [.data 4]) := by decide +kernel

/-- The function is asked only after each read: an end inside a larger read is passed over, the next message is in the same buffer. -/
theorem C49_scan_passes_over :
    getMessageData 5 (fun l => l.getLast? == some 10) 8 [72, 105, 10, 66, 121, 101] [.data 6, .data 1] = (.got [72, 105, 10, 66, 121, 101] false, [], []) := by decide +kernel

/-- **C49**: on every descriptor but 0 `recvMessage` is what the other theorems are about. -/
theorem C49_receive_on {fd : Int} (hfd : fd ≠ 0) (grow : Nat → Nat → Nat) (fuel : Nat) (s : Str) (stream : List Byte) (answers : List RAns) :
    recvMessageOn fd grow fuel s stream answers = recvMessage grow fuel s stream answers := by
  simp [recvMessageOn, hfd]

/-- Finding against **C49**: a valid connection whose descriptor is 0 (the process has closed its standard input) can send but never receive: whatever the peer
sent, `recvMessage` throws an empty message away and reports a moved socket. -/
theorem C49_violation_descriptor_zero (grow : Nat → Nat → Nat) (fuel : Nat) (s : Str) (hc : s.cap ≠ 0) (stream : List Byte) (answers : List RAns) :
    ∃ r, recvMessageOn 0 grow fuel s stream answers = .threw .logic r ∧ r.content = [] := by
  refine ⟨(Str.resize { s with content := [] } s.cap).resize 0, by simp only [recvMessageOn, if_true, hc, if_false], ?_⟩
  exact List.eq_nil_of_length_eq_zero (resize_length _ 0)

end Verif.Socket
