import Verif.Model.Channel

/-! Properties of the middleware channels (C53, C60). -/

namespace Verif.Channel

variable {K M : Type}

/-- One call, in terms of the event it publishes. -/
theorem toStep_eq (mp : Mapper K M) (P : Pub M) (k0 : K) (sent : List M) (o : Op K) :
    toStep mp P k0 sent o = match o.value k0 with
      | none => sent
      | some k => match mp.enc k (P.buf sent) with
        | none => sent
        | some m => sent ++ [m] := by
  cases o with
  | publish k => simp only [toStep, internalPublish, Pub.processAndPublish, Op.value]; cases mp.enc k (P.buf sent) <;> rfl
  | publishShared k =>
    simp only [toStep, internalPublishShared, Pub.processAndPublish, Op.value]; cases mp.enc k (P.buf sent) <;> rfl
  | process p =>
    simp only [toStep, processAndPublish, Op.value]
    cases p k0 with
    | none => rfl
    | some k => simp only [internalPublishShared, Pub.processAndPublish]; cases mp.enc k (P.buf sent) <;> rfl

/-- Messages that result from events in order, each encoded once into some object. -/
inductive Encoded (mp : Mapper K M) : List K → List M → Prop where
  | nil : Encoded mp [] []
  | cons {k ks m ms} (b : M) (h : mp.enc k b = some m) (t : Encoded mp ks ms) : Encoded mp (k :: ks) (m :: ms)

theorem Encoded.append {mp : Mapper K M} {a b : List K} {x y : List M} (h1 : Encoded mp a x) (h2 : Encoded mp b y) :
    Encoded mp (a ++ b) (x ++ y) := by
  induction h1 with
  | nil => exact h2
  | cons b h _ ih => exact .cons b h ih

theorem toRun_from (mp : Mapper K M) (P : Pub M) (k0 : K) (ops : List (Op K)) (sent : List M) :
    ∃ ks ms, ops.foldl (toStep mp P k0) sent = sent ++ ms ∧ Encoded mp ks ms ∧ ks.Sublist (published k0 ops) ∧
      ((∀ k b, (mp.enc k b).isSome = true) → ks = published k0 ops) := by
  induction ops generalizing sent with
  | nil => exact ⟨[], [], by simp, .nil, by simp [published], fun _ => rfl⟩
  | cons o ops ih =>
    rw [List.foldl_cons, toStep_eq]
    cases hv : o.value k0 with
    | none =>
      obtain ⟨ks, ms, h1, h2, h3, h4⟩ := ih sent
      refine ⟨ks, ms, h1, h2, ?_, ?_⟩ <;> simpa [published, List.filterMap_cons, hv] using by assumption
    | some k =>
      cases he : mp.enc k (P.buf sent) with
      | none =>
        simp only [he]
        obtain ⟨ks, ms, h1, h2, h3, h4⟩ := ih sent
        refine ⟨ks, ms, h1, h2, ?_, ?_⟩
        · simp only [published, List.filterMap_cons, hv]; exact h3.cons _
        · intro hall
          have := hall k (P.buf sent)
          rw [he] at this; cases this
      | some m =>
        simp only [he]
        obtain ⟨ks, ms, h1, h2, h3, h4⟩ := ih (sent ++ [m])
        refine ⟨k :: ks, m :: ms, by rw [h1]; simp, .cons _ he h2, ?_, ?_⟩
        · simp only [published, List.filterMap_cons, hv]; exact h3.cons_cons _
        · intro hall
          simp only [published, List.filterMap_cons, hv, List.cons.injEq, true_and]
          exact h4 hall

/-- **C53**, to the middleware: for every series of publications and whatever objects the middleware publisher uses, the messages
sent are the mapped events, one for each publication in the order of publication, if the mapper does not throw. -/
theorem C53_to_middleware (mp : Mapper K M) (hm : ∀ k b, (mp.enc k b).isSome = true) (P : Pub M) (k0 : K) (ops : List (Op K)) :
    Encoded mp (published k0 ops) (toRun mp P k0 ops) := by
  obtain ⟨ks, ms, h1, h2, _, h4⟩ := toRun_from mp P k0 ops []
  rw [h4 hm] at h2
  rw [toRun, h1]; exact h2

/-- A mapper that throws for some events loses only those: the messages are the mapped events of a subsequence. -/
theorem C53_to_middleware_failures (mp : Mapper K M) (P : Pub M) (k0 : K) (ops : List (Op K)) :
    ∃ ks, ks.Sublist (published k0 ops) ∧ Encoded mp ks (toRun mp P k0 ops) := by
  obtain ⟨ks, ms, h1, h2, h3, _⟩ := toRun_from mp P k0 ops []
  exact ⟨ks, h3, by rw [toRun, h1]; exact h2⟩

theorem Encoded.eq_map {mp : Mapper K M} {f : K → M} (hf : ∀ k b, mp.enc k b = some (f k)) {ks : List K} {ms : List M}
    (h : Encoded mp ks ms) : ms = ks.map f := by
  induction h with
  | nil => rfl
  | cons b h _ ih => rw [hf] at h; cases h; simp [ih]

/-- For a mapper whose result does not depend on the previous content of the message (identity, void caster, JSON) the messages
are exactly the images of the events. -/
theorem C53_to_middleware_exact (mp : Mapper K M) (f : K → M) (hf : ∀ k b, mp.enc k b = some (f k)) (P : Pub M) (k0 : K)
    (ops : List (Op K)) : toRun mp P k0 ops = (published k0 ops).map f :=
  (C53_to_middleware mp (by intro k b; rw [hf]; rfl) P k0 ops).eq_map hf

theorem fromRun_from (mp : Mapper K M) (g : M → Option K) (Q : Pub K) (ms : List M) (hg : ∀ m ∈ ms, ∀ b, mp.dec m b = g m)
    (out : List K) : ms.foldl (onMiddlewareMessage mp Q) out = out ++ ms.filterMap g := by
  induction ms generalizing out with
  | nil => simp
  | cons m ms ih =>
    rw [List.foldl_cons, ih (fun m hm => hg m (List.mem_cons_of_mem _ hm))]
    simp only [onMiddlewareMessage, Pub.processAndPublish, hg m List.mem_cons_self]
    cases h : g m <;> simp [List.filterMap_cons, h]

/-- **C53**, from the middleware: every received message is mapped back and published exactly once, in order (nothing for a
message that cannot be decoded). -/
theorem C53_from_middleware (mp : Mapper K M) (g : M → Option K) (hg : ∀ m b, mp.dec m b = g m) (Q : Pub K) (ms : List M) :
    fromRun mp Q ms = ms.filterMap g := by
  rw [fromRun, fromRun_from mp g Q ms (fun m _ b => hg m b) []]; rfl

/-- The mapper is inverse: decoding what was encoded (into any object) gives the event, whatever object receives it. -/
def Inverse (mp : Mapper K M) : Prop := ∀ k b m, mp.enc k b = some m → ∀ k', mp.dec m k' = some k

/-- **C53**, both channels joined by a transport that loses nothing: with an inverse mapper that does not throw the events that come
out are the events that were published. -/
theorem C53_round_trip (mp : Mapper K M) (hi : Inverse mp) (hm : ∀ k b, (mp.enc k b).isSome = true) (P : Pub M) (Q : Pub K) (k0 : K)
    (ops : List (Op K)) : fromRun mp Q (toRun mp P k0 ops) = published k0 ops := by
  have h := C53_to_middleware mp hm P k0 ops
  have key : ∀ (ks : List K) (ms : List M) (out : List K), Encoded mp ks ms →
      ms.foldl (onMiddlewareMessage mp Q) out = out ++ ks := by
    intro ks ms out he
    induction he generalizing out with
    | nil => simp
    | cons b he _ ih =>
      rw [List.foldl_cons, ih]
      simp [onMiddlewareMessage, Pub.processAndPublish, hi _ _ _ he]
  rw [fromRun, key _ _ _ h]; rfl

/-- Events forwarded by `EventForwarder` are published once each, in order. -/
theorem C53_forwarder (k0 : K) (evs : List K) : published k0 (forwardRun evs) = evs := by
  induction evs with
  | nil => rfl
  | cons e evs ih => simpa [published, forwardRun, Op.value, List.filterMap_cons] using ih

/-! The concrete mappers meet the hypotheses. -/

theorem C53_identity (P Q : Pub K) (k0 : K) (ops : List (Op K)) :
    fromRun (identityMapper K) Q (toRun (identityMapper K) P k0 ops) = published k0 ops :=
  C53_round_trip _ (by intro k b m h k'; cases h; rfl) (by intro k b; rfl) P Q k0 ops

theorem C53_json (c : Codec K) (P : Pub (List Mapper.Byte)) (Q : Pub K) (k0 : K) (ops : List (Op K)) :
    fromRun (jsonMapper c) Q (toRun (jsonMapper c) P k0 ops) = published k0 ops :=
  C53_round_trip _ (by
    intro k b m h k'; cases h
    have := c.self_delimiting k []
    simpa [jsonMapper] using this) (by intro k b; rfl) P Q k0 ops

theorem C53_binary (c : Codec K) (P : Pub (List Mapper.Byte)) (Q : Pub K) (k0 : K) (ops : List (Op K)) :
    fromRun (binaryMapper c) Q (toRun (binaryMapper c) P k0 ops) = published k0 ops :=
  C53_round_trip _ (by
    intro k b m h k'; cases h
    exact c.self_delimiting k _) (by intro k b; rfl) P Q k0 ops

/-- Objects of `n` bytes. -/
theorem C53_void_caster (n : Nat) (P Q : Pub (List Mapper.Byte)) (k0 : List Mapper.Byte) (ops : List (Op (List Mapper.Byte)))
    (hn : ∀ k ∈ published k0 ops, k.length = n) :
    fromRun (voidCasterMapper n) Q (toRun (voidCasterMapper n) P k0 ops) = published k0 ops := by
  rw [C53_to_middleware_exact (voidCasterMapper n) id (fun k b => rfl), List.map_id,
    C53_from_middleware _ (fun m => if n ≤ m.length then some (m.take n) else none) (fun m b => rfl)]
  have : ∀ (l : List (List Mapper.Byte)), (∀ k ∈ l, k.length = n) →
      l.filterMap (fun m => if n ≤ m.length then some (m.take n) else none) = l := by
    intro l hl
    induction l with
    | nil => rfl
    | cons a l ih =>
      have ha := hl a List.mem_cons_self
      have h1 : n ≤ a.length := by omega
      have h2 : a.take n = a := by rw [List.take_of_length_le (by omega)]
      simp [List.filterMap_cons, h1, h2, ih (fun k hk => hl k (List.mem_cons_of_mem _ hk))]
  exact this _ hn

/-! ### C60: messages carry only their own event -/

/-- **C60** for the JSON and void caster channels. -/
theorem C60_json_messages (c : Codec K) (P : Pub (List Mapper.Byte)) (k0 : K) (ops : List (Op K)) :
    toRun (jsonMapper c) P k0 ops = (published k0 ops).map c.ser :=
  C53_to_middleware_exact _ _ (fun _ _ => rfl) P k0 ops

theorem C60_void_caster_messages (n : Nat) (P : Pub (List Mapper.Byte)) (k0 : List Mapper.Byte)
    (ops : List (Op (List Mapper.Byte))) : toRun (voidCasterMapper n) P k0 ops = published k0 ops := by
  rw [C53_to_middleware_exact (voidCasterMapper n) id (fun k b => rfl), List.map_id]

theorem overwrite_eq_iff (b old : List Mapper.Byte) : overwrite b old = b ↔ old.length ≤ b.length := by
  unfold overwrite
  rw [← List.drop_eq_nil_iff]
  constructor
  · intro h
    exact List.append_cancel_left (h.trans (List.append_nil b).symm)
  · intro h; rw [h, List.append_nil]

/-- What a series of binary publications must send. -/
def Clean (c : Codec K) (calls : List (Nat × K)) (msgs : List (List Mapper.Byte)) : Prop := msgs = calls.map (fun x => c.ser x.2)

/-- Serializations never get shorter on an object. -/
def NeverShorter (c : Codec K) : (Nat → Nat) → List (Nat × K) → Prop
  | _, [] => True
  | len, (o, k) :: rest => len o ≤ (c.ser k).length ∧ NeverShorter c (upd len o (c.ser k).length) rest

theorem upd_len (f : Nat → List Mapper.Byte) (o : Nat) (b : List Mapper.Byte) :
    (fun j => (upd f o b j).length) = upd (fun j => (f j).length) o b.length := by
  funext j
  simp only [upd_apply]
  split <;> rfl

/-- **C60** for the binary channel holds exactly as long as no event has a shorter serialization than the previous one written to the
same pooled object.
Missing: all other series, see below. -/
theorem C60_binary_messages_partial (c : Codec K) (calls : List (Nat × K)) (contents : Nat → List Mapper.Byte) :
    Clean c calls (binarySend c contents calls) ↔ NeverShorter c (fun o => (contents o).length) calls := by
  induction calls generalizing contents with
  | nil => simp [Clean, binarySend, NeverShorter]
  | cons x rest ih =>
    obtain ⟨o, k⟩ := x
    simp only [Clean, binarySend, NeverShorter, List.map_cons, List.cons.injEq, overwrite_eq_iff]
    constructor
    · rintro ⟨h1, h2⟩
      refine ⟨h1, ?_⟩
      have h3 := (overwrite_eq_iff (c.ser k) (contents o)).mpr h1
      have := (ih _).mp h2
      rw [h3] at this
      rw [upd_len] at this; exact this
    · rintro ⟨h1, h2⟩
      refine ⟨h1, ?_⟩
      have h3 := (overwrite_eq_iff (c.ser k) (contents o)).mpr h1
      rw [h3]
      apply (ih _).mpr
      rw [upd_len]; exact h2

/-- **C60** fails for every pair of events: if the second serialization is shorter and the same pooled object is used (always the case
with one publishing thread), the second message ends with the last bytes of the first. -/
theorem C60_violation_stale_bytes (c : Codec K) (k1 k2 : K) (h : (c.ser k2).length < (c.ser k1).length) (o : Nat) :
    binarySend c (fun _ => []) [(o, k1), (o, k2)] = [c.ser k1, c.ser k2 ++ (c.ser k1).drop (c.ser k2).length] ∧
    (c.ser k1).drop (c.ser k2).length ≠ [] := by
  constructor
  · simp [binarySend, overwrite]
  · rw [ne_eq, List.drop_eq_nil_iff]; omega

/-- A codec of variable length: a length byte and that many bytes 7. -/
def unaryCodec : Codec (Fin 100) where
  ser k := UInt8.ofNat k :: List.replicate k 7
  des m := match m with
    | [] => none
    | b :: _ => some (Fin.ofNat 100 b.toNat)
  self_delimiting k rest := by
    have : k.val < 2 ^ 8 := by omega
    apply congrArg some
    apply Fin.ext
    simp [Fin.ofNat, Nat.mod_eq_of_lt this, UInt8.toNat_ofNat', Nat.mod_eq_of_lt k.isLt]

theorem C60_example : binarySend unaryCodec (fun _ => []) [(0, 1), (0, 3), (1, 2), (0, 1)] =
    [[1, 7], [3, 7, 7, 7], [2, 7, 7], [1, 7, 7, 7]] := by decide +kernel

theorem C53_example :
    fromRun (binaryMapper unaryCodec) ⟨fun _ => 50⟩ (toRun (binaryMapper unaryCodec) ⟨fun l => l.getLastD []⟩ 0
      [.publish 3, .process (fun k => some (k + 1)), .process (fun _ => none), .publishShared 2]) = [3, 1, 2] ∧
    toRun (binaryMapper unaryCodec) ⟨fun l => l.getLastD []⟩ 0
      [.publish 3, .process (fun k => some (k + 1)), .process (fun _ => none), .publishShared 2]
      = [[3, 7, 7, 7], [1, 7, 7, 7], [2, 7, 7, 7]] := by decide +kernel

end Verif.Channel
