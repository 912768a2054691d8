import Verif.Lemmas.ConfigFile

/-!
C37: configuration files; C38 for `PropertyFileEnvironment`.
-/

namespace Verif.Cfg
open Spec

/-- **C37**, for every file: parsing succeeds exactly if every line is blank or an entry of the grammar and no key occurs twice, and the
result is exactly the keys and values given. -/
theorem C37_grammar (text : Str) (m : Contents) : parse text = .ok m ↔ Gives (lines text) m ∧ Unique m := by
  rw [parse, parseFrom_iff _ _ _ _ (by simp [Unique])]
  constructor
  · rintro ⟨es, h1, h2, h3⟩
    rw [List.nil_append] at h2 h3
    subst h2; exact ⟨h1, h3⟩
  · rintro ⟨h1, h2⟩
    exact ⟨m, h1, rfl, h2⟩

theorem find_of_mem {m : Contents} (h : Unique m) {k v : Str} (hm : (k, v) ∈ m) : find m k = some v := by
  induction m with
  | nil => cases hm
  | cons p m ih =>
    obtain ⟨k', v'⟩ := p
    simp only [Unique, List.map_cons, List.nodup_cons] at h
    simp only [find]
    rcases List.mem_cons.mp hm with e | hm
    · cases e; simp
    · rw [if_neg]
      · exact ih h.2 hm
      · rintro rfl; exact h.1 (List.mem_map.mpr ⟨_, hm, rfl⟩)

theorem item_line (i : Item) (h : i.ok) : '\n' ∉ i.text := by
  have hb : ∀ w, Blanks w → '\n' ∉ w := fun w hw hm => by rcases hw _ hm with h | h <;> simp at h
  cases i with
  | blank n c =>
    simp only [Item.text, List.mem_append, not_or]
    exact ⟨by simp [List.mem_replicate], h⟩
  | entry w1 k w2 w3 v w4 c =>
    obtain ⟨h1, _, h2, h3, _, _, h4, h5, h6, h7⟩ := h
    simp [Item.text, hb w1 h1, hb w2 h2, hb w3 h3, hb w4 h4, h5, h6, h7]

theorem comment_ok (c : Option Str) : Comment (comment c) := by
  cases c with
  | none => exact .inl rfl
  | some c => exact .inr ⟨c, rfl⟩

theorem gives_write (is : List Item) (h : ∀ i ∈ is, i.ok) : Gives (lines (write is)) (contents is) := by
  induction is with
  | nil => rfl
  | cons i is ih =>
    have hi := h i (by simp)
    have ih := ih (fun i hi => h i (by simp [hi]))
    have : write (i :: is) = i.text ++ '\n' :: write is := by simp [write]
    rw [this, lines_line (item_line i hi)]
    cases i with
    | blank n c =>
      exact .inl ⟨⟨_, _, rfl, fun x hx => (List.mem_replicate.mp hx).2, comment_ok c⟩, ih⟩
    | entry w1 k w2 w3 v w4 c =>
      obtain ⟨h1, hk, h2, h3, hv, hn, h4, _⟩ := hi
      refine .inr ⟨k, v, contents is, ⟨w1, w2, w3, w4, comment c, rfl, h1, hk, ⟨?_, ?_⟩, h3, hv, h4, comment_ok c, ?_⟩, rfl, ih⟩
      · cases w2 with
        | nil => exact .inl rfl
        | cons a w2 => exact .inr ⟨a, w2, rfl, h2 a (by simp)⟩
      · intro x hx
        rcases h2 x hx with rfl | rfl <;> decide
      · obtain ⟨a, t, rfl⟩ := List.exists_cons_of_ne_nil hn
        exact ⟨a, by simp, (hv.2.1 a rfl).2⟩

/-- **C37**: writing any keys and values, with any blanks and comments around them, and parsing the file gives them back.
Missing: what the format cannot represent (C37_violation_blank_lines, C37_violation_key_with_blank). -/
theorem C37_round_trip_partial (is : List Item) (h : ∀ i ∈ is, i.ok) (hu : Unique (contents is)) : parse (write is) = .ok (contents is) :=
  (C37_grammar _ _).mpr ⟨gives_write is h, hu⟩

/-- **C37**: and each key reads back as its value, a key not in the file as the default, provided the value can be converted.
Missing: conversions that do not return the value (C37_violation_first_word, C37_violation_conversions). -/
theorem C37_read_back_partial {V : Type} (conv : Str → Option V) (is : List Item) (h : ∀ i ∈ is, i.ok) (hu : Unique (contents is)) :
    ∃ m, parse (write is) = .ok m ∧
      (∀ k v, (k, v) ∈ contents is → ∀ d, getValueOfKey conv m k d = conv v) ∧
      (∀ k, k ∉ (contents is).map (·.1) → ∀ d, getValueOfKey conv m k d = some d) := by
  refine ⟨_, C37_round_trip_partial is h hu, ?_, ?_⟩
  · intro k v hm d; simp [getValueOfKey, find_of_mem hu hm]
  · intro k hk d; simp [getValueOfKey, (find_none_iff _ _).mpr hk]

/-- **C37**: a key given twice is rejected, whatever comes after. -/
theorem C37_duplicate_rejected (ls : List Str) (m : Contents) (hg : Gives ls m) (hu : Unique m) (l k v w : Str) (he : Entry l k v)
    (hm : (k, w) ∈ m) (rest : List Str) : parseFrom [] 0 (ls ++ l :: rest) = .error .duplicate := by
  rw [parseFrom_append, (parseFrom_iff ls [] 0 m (by simp [Unique])).mpr ⟨m, hg, rfl, hu⟩]
  simp only []
  obtain ⟨h1, h2, h3, h4, h5⟩ := entry_parse he
  rw [parseFrom_cons, h5]
  simp [parseLine, h1, h2, extractContents, h3, find_of_mem hu hm]

/-- **C37**: a line without `=` that is not blank is rejected, and the exception names its number. -/
theorem C37_no_separator_rejected (ls : List Str) (m : Contents) (hg : Gives ls m) (hu : Unique m) (l : Str) (hb : ¬ Blank l)
    (hs : '=' ∉ removeComment l) (rest : List Str) : parseFrom [] 0 (ls ++ l :: rest) = .error (.separator (ls.length + 1)) := by
  rw [parseFrom_append, (parseFrom_iff ls [] 0 m (by simp [Unique])).mpr ⟨m, hg, rfl, hu⟩]
  simp only []
  rw [blank_iff] at hb
  rw [parseFrom_cons, if_neg hb]
  simp [parseLine, hs]

/-- **C37**: a line with `=` that is neither blank nor an entry is rejected, and the exception names its number. -/
theorem C37_bad_format_rejected (ls : List Str) (m : Contents) (hg : Gives ls m) (hu : Unique m) (l : Str) (hb : ¬ Blank l)
    (hs : '=' ∈ removeComment l) (he : ∀ k v, ¬ Entry l k v) (rest : List Str) :
    parseFrom [] 0 (ls ++ l :: rest) = .error (.format (ls.length + 1)) := by
  rw [parseFrom_append, (parseFrom_iff ls [] 0 m (by simp [Unique])).mpr ⟨m, hg, rfl, hu⟩]
  simp only []
  rw [blank_iff] at hb
  rw [parseFrom_cons, if_neg hb]
  have hv : ¬ validLine (removeComment l) = true := fun hv => he _ _ (parse_entry hs hv)
  simp [parseLine, hs, hv]

/-- **C37**: what stands in a comment changes nothing. -/
theorem C37_comment_ignored (m : Contents) (no : Nat) (l c c' : Str) (h : ';' ∉ l) (rest : List Str) :
    parseFrom m no ((l ++ ';' :: c) :: rest) = parseFrom m no ((l ++ ';' :: c') :: rest) := by
  have : ∀ c, removeComment (l ++ ';' :: c) = l := fun c =>
    (tw (p := (· ≠ ';')) (fun x hx => by simp; rintro rfl; exact h hx) (.inr ⟨';', c, rfl, by simp⟩)).1
  rw [parseFrom_cons, parseFrom_cons, this, this]

deriving instance DecidableEq for Except

/-- A file with blanks, comments and three entries. -/
def sample : List Item :=
  [.blank 2 (some "a = 1".toList), .entry "\t ".toList "rate".toList " ".toList "  ".toList "10".toList " ".toList (some " per s".toList),
   .entry [] "name".toList [] [] "a=b c".toList [] none, .blank 0 none, .entry [] "x".toList [] [] "-7".toList [] none]

/-- Non-trivial instance of the round trip. -/
example : parse (write sample) =
    .ok [("rate".toList, "10".toList), ("name".toList, "a=b c".toList), ("x".toList, "-7".toList)] := by decide +kernel

example : ∀ i ∈ sample, i.ok := by
  simp only [sample, List.mem_cons, List.not_mem_nil, or_false, forall_eq_or_imp, forall_eq]
  simp [Item.ok, comment, Blanks, Key, Value]

/-! ### typed values -/

theorem hasHex_x {v : Str} (h : 'x' ∉ v) : hasHex v = false := by
  induction v with
  | nil => rfl
  | cons a v ih =>
    cases v with
    | nil => rfl
    | cons b v =>
      simp only [List.mem_cons, not_or] at h
      simp only [hasHex, ih (by simp [h.2.1, h.2.2])]
      have : (b == 'x') = false := by simp; exact fun e => h.2.1 e.symm
      simp [this]

/-- What separates words: the blank and the control characters 9 to 13 (tab, line feed, vertical tab, form feed, carriage return). -/
theorem C37_space_iff (c : Char) : isSpace c = true ↔ c.toNat = 32 ∨ 9 ≤ c.toNat ∧ c.toNat ≤ 13 := by
  have key : ∀ d : Char, c = d ↔ c.toNat = d.toNat := fun d => ⟨fun h => h ▸ rfl, fun h => Char.ext (UInt32.toNat_inj.mp h)⟩
  simp only [isSpace, Bool.or_eq_true, beq_iff_eq, key]
  have e : ' '.toNat = 32 ∧ '\t'.toNat = 9 ∧ '\n'.toNat = 10 ∧ '\r'.toNat = 13 ∧ '\x0b'.toNat = 11 ∧ '\x0c'.toNat = 12 := by decide +kernel
  obtain ⟨e1, e2, e3, e4, e5, e6⟩ := e
  rw [e1, e2, e3, e4, e5, e6]
  omega

/-- **C37**: a value that is one word is read as that string. -/
theorem C37_string_value (v : Str) (hn : v ≠ []) (hs : ∀ c ∈ v, isSpace c = false) : toStr v = some v := by
  have h1 : v.dropWhile isSpace = v := by
    obtain ⟨a, t, rfl⟩ := List.exists_cons_of_ne_nil hn
    rw [List.dropWhile_cons_of_neg (by simp [hs a (by simp)])]
  have h2 : v.takeWhile (fun c => !isSpace c) = v := by
    have := (tw (p := fun c => !isSpace c) (a := v) (b := []) (fun c hc => by simp [hs c hc]) (.inl rfl)).1
    simpa using this
  have : readWord v = some v := by simp only [readWord, h1, h2]; rw [if_neg hn]
  simp [toStr, this]

theorem dropWhile_all {v : Str} (hs : ∀ c ∈ v, isSpace c = true) : v.dropWhile isSpace = [] := by
  induction v with
  | nil => rfl
  | cons a t ih => rw [List.dropWhile_cons_of_pos (hs a (by simp))]; exact ih fun c hc => hs c (List.mem_cons_of_mem _ hc)

/-- Values without a word: the exception, also for a value that is only blanks; never for a value that contains a hexadecimal prefix, of which the first word is
returned. -/
theorem C37_string_value_blank (v : Str) (hs : ∀ c ∈ v, isSpace c = true) (hh : hasHex v = false) : toStr v = none := by
  have h1 : v.dropWhile isSpace = [] := dropWhile_all hs
  simp [toStr, hh, readWord, h1]

theorem C37_string_value_hex_total (v : Str) (hh : hasHex v = true) : (toStr v).isSome = true := by simp [toStr, hh]

theorem C37_string_value_blank_example : toStr "  ".toList = none ∧ toStr [] = none ∧ toStr " 0x10 a".toList = some "0x10".toList := by decide +kernel

/-- **C37 violation**: of any other value only the first word is returned. -/
theorem C37_violation_first_word (a b : Str) (c : Char) (hn : a ≠ []) (hs : ∀ x ∈ a, isSpace x = false) (hc : isSpace c = true) :
    toStr (a ++ c :: b) = some a := by
  have h1 : (a ++ c :: b).dropWhile isSpace = a ++ c :: b := by
    obtain ⟨x, t, rfl⟩ := List.exists_cons_of_ne_nil hn
    rw [List.cons_append, List.dropWhile_cons_of_neg (by simp [hs x (by simp)])]
  have h2 : (a ++ c :: b).takeWhile (fun c => !isSpace c) = a :=
    (tw (p := fun c => !isSpace c) (fun x hx => by simp [hs x hx]) (.inr ⟨c, b, rfl, by simp [hc]⟩)).1
  have : readWord (a ++ c :: b) = some a := by simp only [readWord, h1, h2]; rw [if_neg hn]
  simp [toStr, this]

example : toStr "hello world".toList = some "hello".toList := by decide +kernel

/-- The number a list of decimal digits stands for. -/
def decimal (ds : List Nat) : Nat := ds.foldl (fun n d => n * 10 + d) 0

/-- The character of a digit. -/
def digitChar (d : Nat) : Char := Char.ofNat ('0'.toNat + d)

theorem digit_digitChar {d : Nat} (h : d < 10) : digit (digitChar d) = some d := by
  have : ∀ d < 10, digit (digitChar d) = some d := by decide +kernel
  exact this d h

theorem digitChar_not {d : Nat} (h : d < 10) : isSpace (digitChar d) = false ∧ digitChar d ≠ 'x' ∧ digitChar d ≠ '-' ∧ digitChar d ≠ '+' := by
  have : ∀ d < 10, isSpace (digitChar d) = false ∧ digitChar d ≠ 'x' ∧ digitChar d ≠ '-' ∧ digitChar d ≠ '+' := by decide +kernel
  exact this d h

theorem number_digits (ds : List Nat) (h : ∀ d ∈ ds, d < 10) (acc : Nat) (seen : Bool) :
    number digit 10 acc seen (ds.map digitChar) = (ds.foldl (fun n d => n * 10 + d) acc, seen || !ds.isEmpty) := by
  induction ds generalizing acc seen with
  | nil => simp [number]
  | cons d ds ih =>
    simp only [List.map_cons, number, digit_digitChar (h d (by simp)), List.foldl_cons]
    rw [ih (fun d hd => h d (by simp [hd]))]
    simp

theorem sign_other {c : Char} (h1 : c ≠ '-') (h2 : c ≠ '+') (cs : Str) : sign (c :: cs) = (1, c :: cs) := by
  simp only [sign]
  split
  · next h => cases h; exact absurd rfl h1
  · next h => cases h; exact absurd rfl h2
  · rfl

/-- **C37**: every decimal numeral, with or without `-`, is read as its number if it fits an `int`, and rejected otherwise. -/
theorem C37_int_value (ds : List Nat) (hn : ds ≠ []) (h : ∀ d ∈ ds, d < 10) (neg : Bool) :
    toInt ((if neg then ['-'] else []) ++ ds.map digitChar) =
      (let x : Int := if neg then -(decimal ds : Int) else decimal ds
       if -2147483648 ≤ x ∧ x ≤ 2147483647 then some x else none) := by
  have hx : 'x' ∉ (if neg then ['-'] else []) ++ ds.map digitChar := by
    simp only [List.mem_append, not_or, List.mem_map, not_exists, not_and]
    refine ⟨by cases neg <;> simp, fun d hd e => (digitChar_not (h d hd)).2.1 e⟩
  rw [toInt, hasHex_x hx]
  simp only [Bool.false_eq_true, if_false]
  have hemp : ds.isEmpty = false := by cases ds <;> simp_all
  cases neg with
  | true =>
    have h1 : (['-'] ++ ds.map digitChar).dropWhile isSpace = '-' :: ds.map digitChar := by
      rw [List.cons_append, List.dropWhile_cons_of_neg (by decide)]; rfl
    simp only [if_true, readInt, h1, sign, number_digits ds h, hemp, intMin, intMax]
    simp [decimal]
  | false =>
    obtain ⟨d, t, rfl⟩ := List.exists_cons_of_ne_nil hn
    have hd := digitChar_not (h d (by simp))
    have h1 : ([] ++ (d :: t).map digitChar).dropWhile isSpace = (d :: t).map digitChar := by
      simp only [List.nil_append, List.map_cons]
      rw [List.dropWhile_cons_of_neg (by simp [hd.1])]
    have h2 : sign ((d :: t).map digitChar) = (1, (d :: t).map digitChar) := by
      simp only [List.map_cons]; exact sign_other hd.2.2.1 hd.2.2.2 _
    simp only [Bool.false_eq_true, if_false, readInt, h1, h2, number_digits _ h, intMin, intMax]
    simp [decimal]

/-- **C37**: a `+` in front of a decimal numeral changes nothing. -/
theorem C37_int_plus (ds : List Nat) (hn : ds ≠ []) (h : ∀ d ∈ ds, d < 10) :
    toInt ('+' :: ds.map digitChar) = toInt (ds.map digitChar) := by
  have h0 := C37_int_value ds hn h false
  simp only [Bool.false_eq_true, if_false, List.nil_append] at h0
  rw [h0]
  have hx : 'x' ∉ '+' :: ds.map digitChar := by
    simp only [List.mem_cons, not_or, List.mem_map, not_exists, not_and]
    exact ⟨by decide, fun d hd e => (digitChar_not (h d hd)).2.1 e⟩
  rw [toInt, hasHex_x hx]
  have hemp : ds.isEmpty = false := by cases ds <;> simp_all
  have h1 : ('+' :: ds.map digitChar).dropWhile isSpace = '+' :: ds.map digitChar := by
    rw [List.dropWhile_cons_of_neg (by decide)]
  simp only [Bool.false_eq_true, if_false, readInt, h1, sign, number_digits ds h, hemp, intMin, intMax]
  simp [decimal]

/-- The number of a list of hexadecimal digits. -/
def hexadecimal (ds : List Nat) : Nat := ds.foldl (fun n d => n * 16 + d) 0

/-- The character of a hexadecimal digit, in lower (`false`) or upper case. -/
def hexChar (u : Bool) (d : Nat) : Char :=
  if d < 10 then digitChar d else Char.ofNat ((if u then 'A' else 'a').toNat + (d - 10))

theorem hexDigit_hexChar {u : Bool} {d : Nat} (h : d < 16) : hexDigit (hexChar u d) = some d := by
  have : ∀ u : Bool, ∀ d < 16, hexDigit (hexChar u d) = some d := by decide +kernel
  exact this u d h

theorem number_hexDigits (ds : List (Bool × Nat)) (h : ∀ d ∈ ds, d.2 < 16) (acc : Nat) (seen : Bool) :
    (number hexDigit 16 acc seen (ds.map (fun d => hexChar d.1 d.2))).1 = (ds.map (·.2)).foldl (fun n d => n * 16 + d) acc := by
  induction ds generalizing acc seen with
  | nil => simp [number]
  | cons d ds ih =>
    simp only [List.map_cons, number, hexDigit_hexChar (h d (by simp)), List.foldl_cons]
    exact ih (fun d hd => h d (by simp [hd])) _ _

/-- **C37**: a hexadecimal numeral `0x…`, in upper, lower or mixed case, with or without sign, is read as its number if it fits an
`int`, and as the nearest `int` otherwise (no error, unlike decimal numerals). -/
theorem C37_hex_value (ds : List (Bool × Nat)) (h : ∀ d ∈ ds, d.2 < 16) (sg : Option Bool) :
    toInt ((match sg with | none => [] | some true => ['-'] | some false => ['+']) ++ '0' :: 'x' :: ds.map (fun d => hexChar d.1 d.2)) =
      (let n : Int := hexadecimal (ds.map (·.2))
       let x : Int := if sg = some true then -n else n
       some (max (-2147483648) (min 2147483647 x))) := by
  have key : ∀ x : Int, (if x > intMax then intMax else if x < intMin then intMin else x) = max (-2147483648) (min 2147483647 x) := by
    intro x
    have e1 : intMax = 2147483647 := rfl
    have e2 : intMin = -2147483648 := rfl
    by_cases h1 : x > intMax
    · rw [if_pos h1]; omega
    · rw [if_neg h1]
      by_cases h2 : x < intMin
      · rw [if_pos h2]; omega
      · rw [if_neg h2]; omega
  have hd : ∀ (c : Char) (cs : Str), isSpace c = false → (c :: cs).dropWhile isSpace = c :: cs := by
    intro c cs hc
    rw [List.dropWhile_cons_of_neg (by simp [hc])]
  rcases sg with _ | _ | _
  · have hh : hasHex ('0' :: 'x' :: ds.map (fun d => hexChar d.1 d.2)) = true := by simp [hasHex]
    simp only [List.nil_append, toInt, hh, if_true, readHex, hd '0' _ (by decide), sign, key]
    simp [hexadecimal, number_hexDigits ds h]
  · have hh : hasHex ('+' :: '0' :: 'x' :: ds.map (fun d => hexChar d.1 d.2)) = true := by simp [hasHex]
    simp only [List.cons_append, List.nil_append, toInt, hh, if_true, readHex, hd '+' _ (by decide), sign, key]
    simp [hexadecimal, number_hexDigits ds h]
  · have hh : hasHex ('-' :: '0' :: 'x' :: ds.map (fun d => hexChar d.1 d.2)) = true := by simp [hasHex]
    simp only [List.cons_append, List.nil_append, toInt, hh, if_true, readHex, hd '-' _ (by decide), sign, key]
    simp [hexadecimal, number_hexDigits ds h]

example : toInt "0xFf".toList = some 255 ∧ toInt "-0x10".toList = some (-16) ∧ toInt "0xffffffff".toList = some 2147483647 := by decide +kernel

/-- **C37**: a decimal numeral is read as a `bool` exactly if its number is 0 or 1; every other numeral is rejected (an exception). -/
theorem C37_bool_value (ds : List Nat) (hn : ds ≠ []) (h : ∀ d ∈ ds, d < 10) :
    toBool (ds.map digitChar) = (if decimal ds = 0 then some false else if decimal ds = 1 then some true else none) := by
  have hx : 'x' ∉ ds.map digitChar := by
    simp only [List.mem_map, not_exists, not_and]
    exact fun d hd e => (digitChar_not (h d hd)).2.1 e
  have h1 := C37_int_value ds hn h false
  simp only [Bool.false_eq_true, if_false, List.nil_append] at h1
  rw [toInt, hasHex_x hx] at h1
  simp only [Bool.false_eq_true, if_false] at h1
  rw [toBool, h1]
  by_cases hd : (-2147483648 : Int) ≤ decimal ds ∧ (decimal ds : Int) ≤ 2147483647
  · rw [if_pos hd]
    simp only [Int.natCast_eq_zero]; norm_cast
  · rw [if_neg hd, if_neg (by omega), if_neg (by omega)]

example : toBool (['0', '0', '1'] : Str) = some true ∧ toBool (['2'] : Str) = none := by decide +kernel

example : toInt "-42".toList = some (-42) ∧ toInt "2147483648".toList = none ∧ toInt "12abc".toList = some 12 := by decide +kernel

/-- **C37 violation**: `true` and `false` are not booleans, and a text with `0x` somewhere is silently an integer. -/
theorem C37_violation_conversions :
    toBool "true".toList = none ∧ toBool "false".toList = none ∧ toInt "node0x".toList = some 0 ∧ toInt "12 0x".toList = some 18 ∧
      toInt "0xFFFFFFFFF".toList = some 2147483647 := by decide +kernel

/-- **C37 violation**: a line with only a tab, or only a carriage return, is not ignored but rejects the file. -/
theorem C37_violation_blank_lines :
    parse "a = 1\n\t\nb = 2\n".toList = .error (.separator 2) ∧ parse "a = 1\r\n\r\nb = 2\n".toList = .error (.separator 2) := by
  decide +kernel

/-- **C37 violation**: blanks inside a key: the key is cut, and two different keys collide. -/
theorem C37_violation_key_with_blank : parse "max speed = 1\nmax height = 2\n".toList = .error .duplicate ∧
    parse "max speed = 1\n".toList = .ok [("max".toList, "1".toList)] := by decide +kernel

/-- **C38 violation** (`PropertyFileEnvironment`): the result is `true` even when the default is returned, and setting has no effect. -/
theorem C38_violation_property_file {V : Type} (conv : Str → Option V) (m : Contents) (k : Str) (d v : V) (root : Str) :
    (find m k = none → envGet conv m k d root = some (d, true)) ∧
    envGet conv (envSet m k v root) k d root = envGet conv m k d root := by
  refine ⟨fun h => ?_, rfl⟩
  simp [envGet, getValueOfKey, h]

end Verif.Cfg
