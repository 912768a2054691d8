import Verif.Spec.ConfigFile

namespace Verif.Cfg
open Spec

/-- Where a prefix of good characters ends. -/
theorem tw {p : Char → Bool} {a b : Str} (ha : ∀ c ∈ a, p c = true) (hb : b = [] ∨ ∃ x t, b = x :: t ∧ p x = false) :
    (a ++ b).takeWhile p = a ∧ (a ++ b).dropWhile p = b := by
  induction a with
  | nil =>
    rcases hb with rfl | ⟨x, t, rfl, hx⟩
    · simp
    · simp [hx]
  | cons c a ih =>
    have hc := ha c (by simp)
    obtain ⟨h1, h2⟩ := ih (fun x hx => ha x (by simp [hx]))
    simp [hc, h1, h2]

theorem takeWhile_all {p : Char → Bool} (l : Str) : ∀ c ∈ l.takeWhile p, p c = true := by
  induction l with
  | nil => simp
  | cons a l ih =>
    intro c hc
    by_cases h : p a = true
    · rw [List.takeWhile_cons_of_pos h] at hc
      rcases List.mem_cons.mp hc with rfl | hc
      · exact h
      · exact ih c hc
    · rw [List.takeWhile_cons_of_neg h] at hc; cases hc

theorem dropWhile_head {p : Char → Bool} (l : Str) : l.dropWhile p = [] ∨ ∃ x t, l.dropWhile p = x :: t ∧ p x = false := by
  induction l with
  | nil => simp
  | cons a l ih =>
    by_cases h : p a = true
    · rw [List.dropWhile_cons_of_pos h]; exact ih
    · rw [List.dropWhile_cons_of_neg h]; exact .inr ⟨a, l, rfl, by simpa using h⟩

theorem tdw (p : Char → Bool) (l : Str) : l.takeWhile p ++ l.dropWhile p = l := List.takeWhile_append_dropWhile

theorem isBlank_iff (c : Char) : isBlank c = true ↔ c = '\t' ∨ c = ' ' := by simp [isBlank]

theorem isBlank_false (c : Char) : isBlank c = false ↔ c ≠ '\t' ∧ c ≠ ' ' := by
  rw [← Bool.not_eq_true, isBlank_iff]; simp

/-! blank lines -/

theorem blank_iff (l : Str) : Blank l ↔ onlyWhitespace (removeComment l) = true := by
  constructor
  · rintro ⟨w, c, rfl, hw, hc⟩
    have := (tw (p := (· ≠ ';')) (a := w) (b := c) (fun x hx => by simp [hw x hx]) (by
      rcases hc with rfl | ⟨x, rfl⟩
      · exact .inl rfl
      · exact .inr ⟨';', x, rfl, by simp⟩)).1
    simp only [removeComment, this, onlyWhitespace, List.all_eq_true]
    intro x hx; simp [hw x hx]
  · intro h
    refine ⟨removeComment l, l.dropWhile (· ≠ ';'), (tdw _ l).symm, ?_, ?_⟩
    · simp only [onlyWhitespace, List.all_eq_true] at h
      intro x hx; simpa using h x hx
    · rcases dropWhile_head (p := (· ≠ ';')) l with h | ⟨x, t, h, hx⟩
      · exact .inl h
      · have : x = ';' := by simpa using hx
        subst this
        exact .inr ⟨t, h⟩

/-! the separator -/

theorem sep_split {a b : Str} (ha : ∀ c ∈ a, c ≠ '=') : beforeSep (a ++ '=' :: b) = a ∧ afterSep (a ++ '=' :: b) = b := by
  obtain ⟨h1, h2⟩ := tw (p := (· ≠ '=')) (a := a) (b := '=' :: b) (fun c hc => by simp [ha c hc]) (.inr ⟨'=', b, rfl, by simp⟩)
  refine ⟨h1, ?_⟩
  simp only [afterSep]
  rw [if_pos (by simp), h2]; rfl

theorem sep_join {t : Str} (h : '=' ∈ t) : t = beforeSep t ++ '=' :: afterSep t ∧ ∀ c ∈ beforeSep t, c ≠ '=' := by
  refine ⟨?_, fun c hc => by simpa using takeWhile_all (p := (· ≠ '=')) t c hc⟩
  have h1 := tdw (· ≠ '=') t
  rcases dropWhile_head (p := (· ≠ '=')) t with h2 | ⟨x, r, h2, hx⟩
  · exfalso
    rw [h2, List.append_nil] at h1
    have := takeWhile_all (p := (· ≠ '=')) t '=' (by rw [h1]; exact h)
    simp at this
  · have hx : x = '=' := by simpa using hx
    subst hx
    simp only [beforeSep, afterSep, if_pos h]
    rw [h2] at h1 ⊢
    exact h1.symm

/-! trimming -/

theorem ltrim_append {w r : Str} (hw : Blanks w) (hr : r = [] ∨ ∃ x t, r = x :: t ∧ isBlank x = false) : ltrim (w ++ r) = r :=
  (tw (p := isBlank) (fun c hc => (isBlank_iff c).mpr (hw c hc)) hr).2

theorem trim_value {w1 v w2 : Str} (h1 : Blanks w1) (hv : Value v) (h2 : Blanks w2) : rtrim (ltrim (w1 ++ v ++ w2)) = v := by
  by_cases hn : v = []
  · subst hn
    have : ltrim (w1 ++ [] ++ w2) = [] := by
      have := ltrim_append (w := w1 ++ w2) (r := []) (fun c hc => by
        rcases List.mem_append.mp hc with h | h
        · exact h1 c h
        · exact h2 c h) (.inl rfl)
      simpa using this
    rw [this]; rfl
  · have e1 : ltrim (w1 ++ v ++ w2) = v ++ w2 := by
      rw [List.append_assoc]
      apply ltrim_append h1
      obtain ⟨x, t, rfl⟩ := List.exists_cons_of_ne_nil hn
      exact .inr ⟨x, t ++ w2, rfl, (isBlank_false x).mpr (hv.2.1 x rfl)⟩
    have e2 : ltrim (v ++ w2).reverse = v.reverse := by
      rw [List.reverse_append]
      apply ltrim_append (fun c hc => h2 c (List.mem_reverse.mp hc))
      have hn' : v.reverse ≠ [] := by simpa using hn
      obtain ⟨x, t, hx⟩ := List.exists_cons_of_ne_nil hn'
      refine .inr ⟨x, t, hx, (isBlank_false x).mpr (hv.2.2 x ?_)⟩
      rw [← List.head?_reverse, hx]; rfl
    rw [e1, rtrim, e2, List.reverse_reverse]

theorem trim_split (a : Str) : ∃ w1 w2, a = w1 ++ rtrim (ltrim a) ++ w2 ∧ Blanks w1 ∧ Blanks w2 ∧
    (∀ c, (rtrim (ltrim a)).head? = some c → c ≠ '\t' ∧ c ≠ ' ') ∧ (∀ c, (rtrim (ltrim a)).getLast? = some c → c ≠ '\t' ∧ c ≠ ' ') := by
  have ha := tdw isBlank a
  have hb := tdw isBlank (ltrim a).reverse
  refine ⟨a.takeWhile isBlank, ((ltrim a).reverse.takeWhile isBlank).reverse, ?_, ?_, ?_, ?_, ?_⟩
  · have : ltrim a = rtrim (ltrim a) ++ ((ltrim a).reverse.takeWhile isBlank).reverse := by
      have h := congrArg List.reverse hb
      rw [List.reverse_append, List.reverse_reverse] at h
      exact h.symm
    rw [List.append_assoc, ← this]
    exact ha.symm
  · intro c hc; exact (isBlank_iff c).mp (takeWhile_all a c hc)
  · intro c hc; exact (isBlank_iff c).mp (takeWhile_all _ c (List.mem_reverse.mp hc))
  · intro c hc
    rw [← isBlank_false]
    rcases dropWhile_head (p := isBlank) a with h | ⟨x, t, h, hx⟩
    · have : ltrim a = [] := h
      rw [this] at hc; simp [rtrim, ltrim] at hc
    · have h' : ltrim a = x :: t := h
      have : ltrim a = rtrim (ltrim a) ++ ((ltrim a).reverse.takeWhile isBlank).reverse := by
        have h := congrArg List.reverse hb
        rw [List.reverse_append, List.reverse_reverse] at h
        exact h.symm
      cases hr : rtrim (ltrim a) with
      | nil => rw [hr] at hc; cases hc
      | cons y r =>
        rw [hr] at hc this
        rw [h'] at this
        simp at hc this
        rw [← hc, ← this.1]; exact hx
  · intro c hc
    rw [← isBlank_false]
    simp only [rtrim, List.getLast?_reverse] at hc
    rcases dropWhile_head (p := isBlank) (ltrim a).reverse with h | ⟨x, t, h, hx⟩
    · have : ltrim (ltrim a).reverse = [] := h
      rw [this] at hc; cases hc
    · have : ltrim (ltrim a).reverse = x :: t := h
      rw [this] at hc
      simp at hc
      rw [← hc]; exact hx

/-! entries -/

theorem entry_parse {l k v : Str} (h : Entry l k v) :
    '=' ∈ removeComment l ∧ validLine (removeComment l) = true ∧ extractKey (ltrim (removeComment l)) = k ∧
      extractValue (ltrim (removeComment l)) = v ∧ onlyWhitespace (removeComment l) = false := by
  obtain ⟨w1, g, w2, w3, c, rfl, hw1, hk, hg, hw2, hv, hw3, hc, x, hx, hxs⟩ := h
  have hs : removeComment (w1 ++ k ++ g ++ ['='] ++ w2 ++ v ++ w3 ++ c) = w1 ++ (k ++ g ++ '=' :: (w2 ++ v ++ w3)) := by
    have : w1 ++ k ++ g ++ ['='] ++ w2 ++ v ++ w3 ++ c = (w1 ++ (k ++ g ++ '=' :: (w2 ++ v ++ w3))) ++ c := by simp
    rw [this]
    refine (tw (p := (· ≠ ';')) ?_ ?_).1
    · intro y hy
      have hbl : ∀ w, Blanks w → y ∈ w → y ≠ ';' := by
        intro w hw hy e; subst e; rcases hw ';' hy with h | h <;> simp at h
      simp only [List.mem_append, List.mem_cons] at hy
      have : y ≠ ';' := by
        rcases hy with h | (h | h) | h | (h | h) | h
        · exact hbl w1 hw1 h
        · exact (hk.2 y h).2.2.2
        · exact (hg.2 y h).2
        · rw [h]; decide
        · exact hbl w2 hw2 h
        · exact hv.1 y h
        · exact hbl w3 hw3 h
      simpa using this
    · rcases hc with rfl | ⟨z, rfl⟩
      · exact .inl rfl
      · exact .inr ⟨';', z, rfl, by simp⟩
  rw [hs]
  obtain ⟨k0, kt, rfl⟩ := List.exists_cons_of_ne_nil hk.1
  have hk0 := hk.2 k0 (by simp)
  have hl : ltrim (w1 ++ (k0 :: kt ++ g ++ '=' :: (w2 ++ v ++ w3))) = k0 :: kt ++ g ++ '=' :: (w2 ++ v ++ w3) :=
    ltrim_append hw1 (.inr ⟨k0, kt ++ g ++ '=' :: (w2 ++ v ++ w3), by simp, (isBlank_false k0).mpr ⟨hk0.1, hk0.2.1⟩⟩)
  obtain ⟨hb, ha⟩ := sep_split (a := k0 :: kt ++ g) (b := w2 ++ v ++ w3) (fun y hy => by
    rcases List.mem_append.mp hy with h | h
    · exact (hk.2 y h).2.2.1
    · exact (hg.2 y h).1)
  refine ⟨by simp, ?_, ?_, ?_, ?_⟩
  · simp only [validLine, hl, ha]
    rw [if_neg (by simp; exact hk0.2.2.1)]
    simp only [List.any_eq_true]
    exact ⟨x, hx, by simpa using hxs⟩
  · rw [hl, extractKey, hb]
    refine (tw (p := fun c => !isBlank c) ?_ ?_).1
    · intro y hy
      have := hk.2 y hy
      simp [isBlank, this.1, this.2.1]
    · rcases hg.1 with rfl | ⟨y, z, rfl, hy⟩
      · exact .inl rfl
      · exact .inr ⟨y, z, rfl, by simp [(isBlank_iff y).mpr hy]⟩
  · rw [hl, extractValue, ha]; exact trim_value hw2 hv hw3
  · rw [Bool.eq_false_iff]
    simp only [onlyWhitespace, ne_eq, List.all_eq_true, Classical.not_forall]
    exact ⟨'=', by simp, by decide⟩

theorem parse_entry {l : Str} (h1 : '=' ∈ removeComment l) (h2 : validLine (removeComment l) = true) :
    Entry l (extractKey (ltrim (removeComment l))) (extractValue (ltrim (removeComment l))) := by
  have hnc : ∀ c ∈ removeComment l, c ≠ ';' := fun c hc => by simpa using takeWhile_all (p := (· ≠ ';')) l c hc
  have hl : l = removeComment l ++ l.dropWhile (· ≠ ';') := (tdw _ l).symm
  generalize hcm : l.dropWhile (· ≠ ';') = cm at hl
  have hcc : Comment cm := by
    rcases dropWhile_head (p := (· ≠ ';')) l with h | ⟨x, t, h, hx⟩
    · exact .inl (hcm ▸ h)
    · have : x = ';' := by simpa using hx
      subst this
      exact .inr ⟨t, hcm ▸ h⟩
  generalize removeComment l = s at *
  subst hl
  clear hcm
  have hs := tdw isBlank s
  have ht : s.dropWhile isBlank = ltrim s := rfl
  rw [ht] at hs
  generalize hw : s.takeWhile isBlank = w1 at hs
  have hw1 : Blanks w1 := by
    subst hw; intro c hc; exact (isBlank_iff c).mp (takeWhile_all s c hc)
  have hmem : '=' ∈ ltrim s := by
    rw [← hs] at h1
    rcases List.mem_append.mp h1 with h | h
    · rcases hw1 _ h with h | h <;> simp at h
    · exact h
  have hnt : ∀ c ∈ ltrim s, c ≠ ';' := fun c hc => hnc c (hs ▸ List.mem_append_right _ hc)
  obtain ⟨hj, hbf⟩ := sep_join hmem
  simp only [validLine] at h2
  split at h2
  · cases h2
  next hhd =>
  have hhd2 := dropWhile_head (p := isBlank) s
  rw [ht] at hhd2
  rcases hhd2 with h | ⟨x, r, hxr, hxb⟩
  · rw [h] at hmem; cases hmem
  generalize ltrim s = t at *
  have hxe : x ≠ '=' := by
    intro e; apply hhd; rw [hxr, e]; rfl
  have hbs := tdw (fun c => !isBlank c) (beforeSep t)
  have hek : (beforeSep t).takeWhile (fun c => !isBlank c) = extractKey t := rfl
  rw [hek] at hbs
  generalize hg : (beforeSep t).dropWhile (fun c => !isBlank c) = g at hbs
  have hb2 := dropWhile_head (p := fun c => !isBlank c) (beforeSep t)
  rw [hg] at hb2
  have hkall : ∀ c ∈ extractKey t, isBlank c = false := fun c hc => by
    simpa using takeWhile_all (p := fun c => !isBlank c) (beforeSep t) c hc
  obtain ⟨w2, w3, ha, hw2, hw3, hvh, hvl⟩ := trim_split (afterSep t)
  refine ⟨w1, g, w2, w3, cm, ?_, hw1, ⟨?_, ?_⟩, ⟨?_, ?_⟩, hw2, ⟨?_, hvh, hvl⟩, hw3, hcc, ?_⟩
  · have ha' : afterSep t = w2 ++ extractValue t ++ w3 := ha
    congr 1
    have h3 : t = extractKey t ++ g ++ '=' :: (w2 ++ extractValue t ++ w3) := by rw [hbs, ← ha']; exact hj
    calc s = w1 ++ t := hs.symm
      _ = w1 ++ (extractKey t ++ g ++ '=' :: (w2 ++ extractValue t ++ w3)) := congrArg _ h3
      _ = _ := by simp
  · intro he
    have : beforeSep t = x :: (r.takeWhile (· ≠ '=')) := by
      rw [hxr]; simp [beforeSep, hxe]
    rw [← hek, this, List.takeWhile_cons_of_pos (by simp [hxb])] at he
    cases he
  · intro c hc
    have hm : c ∈ beforeSep t := by rw [← hbs]; exact List.mem_append_left _ hc
    have hmt : c ∈ t := by rw [hj]; exact List.mem_append_left _ hm
    have := (isBlank_false c).mp (hkall c hc)
    exact ⟨this.1, this.2, hbf c hm, hnt c hmt⟩
  · rcases hb2 with h | ⟨y, z, h, hy⟩
    · exact .inl h
    · exact .inr ⟨y, z, h, (isBlank_iff y).mp (by simpa using hy)⟩
  · intro c hc
    have hm : c ∈ beforeSep t := by rw [← hbs]; exact List.mem_append_right _ hc
    exact ⟨hbf c hm, hnt c (by rw [hj]; exact List.mem_append_left _ hm)⟩
  · intro c hc
    have : c ∈ afterSep t := by rw [ha]; exact List.mem_append_left _ (List.mem_append_right _ hc)
    exact hnt c (by rw [hj]; exact List.mem_append_right _ (List.mem_cons_of_mem _ this))
  · simp only [List.any_eq_true] at h2
    obtain ⟨y, hy, hys⟩ := h2
    rw [ha] at hy
    exact ⟨y, hy, by simpa using hys⟩

theorem find_none_iff (m : Contents) (k : Str) : find m k = none ↔ k ∉ m.map (·.1) := by
  induction m with
  | nil => simp [find]
  | cons p m ih =>
    obtain ⟨k', v⟩ := p
    simp only [find, List.map_cons, List.mem_cons, not_or]
    split
    · next e => simp [e]
    · next e =>
      rw [ih]
      exact ⟨fun h => ⟨fun x => e x.symm, h⟩, fun h => h.2⟩

theorem unique_append (m : Contents) (k v : Str) : Unique (m ++ [(k, v)]) ↔ Unique m ∧ find m k = none := by
  simp only [Unique, List.map_append, List.map_cons, List.map_nil, find_none_iff]
  rw [List.nodup_append]
  constructor
  · rintro ⟨h1, _, h3⟩
    exact ⟨h1, fun hm => h3 k hm k (by simp) rfl⟩
  · rintro ⟨h1, h2⟩
    refine ⟨h1, by simp, ?_⟩
    intro a ha b hb
    simp at hb; subst hb
    exact fun e => h2 (e ▸ ha)

theorem removeComment_nil : removeComment [] = [] := rfl

/-- One line, fully described. -/
theorem parseFrom_cons (m : Contents) (no : Nat) (l : Str) (ls : List Str) :
    parseFrom m no (l :: ls) =
      if onlyWhitespace (removeComment l) = true then parseFrom m (no + 1) ls
      else match parseLine m (removeComment l) (no + 1) with
        | .ok m' => parseFrom m' (no + 1) ls
        | .error e => .error e := by
  simp only [parseFrom]
  by_cases h : l = []
  · subst h; simp [removeComment, onlyWhitespace]
  · rw [if_neg h]; rfl

theorem parseFrom_append (a b : List Str) : ∀ (m : Contents) (no : Nat),
    parseFrom m no (a ++ b) = match parseFrom m no a with
      | .ok m' => parseFrom m' (no + a.length) b
      | .error e => .error e := by
  induction a with
  | nil => intro m no; rfl
  | cons l a ih =>
    intro m no
    rw [List.cons_append, parseFrom_cons, parseFrom_cons]
    split
    · rw [ih, List.length_cons, Nat.add_right_comm, Nat.add_assoc]
    · split
      · rw [ih, List.length_cons, Nat.add_right_comm, Nat.add_assoc]
      · rfl

theorem parseFrom_iff (ls : List Str) : ∀ (m : Contents) (no : Nat) (m' : Contents), Unique m →
    (parseFrom m no ls = .ok m' ↔ ∃ es, Gives ls es ∧ m' = m ++ es ∧ Unique (m ++ es)) := by
  induction ls with
  | nil =>
    intro m no m' hu
    simp only [parseFrom, Gives, Except.ok.injEq]
    constructor
    · rintro rfl; exact ⟨[], rfl, by simp, by simpa using hu⟩
    · rintro ⟨es, rfl, h, _⟩; simpa using h.symm
  | cons l ls ih =>
    intro m no m' hu
    rw [parseFrom_cons]
    by_cases hb : onlyWhitespace (removeComment l) = true
    · rw [if_pos hb, ih m _ m' hu]
      constructor
      · rintro ⟨es, h1, h2⟩
        exact ⟨es, .inl ⟨(blank_iff l).mpr hb, h1⟩, h2⟩
      · rintro ⟨es, h1 | ⟨k, v, m2, h1, _⟩, h2⟩
        · exact ⟨es, h1.2, h2⟩
        · rw [(entry_parse h1).2.2.2.2] at hb; cases hb
    · rw [if_neg hb]
      simp only [parseLine]
      have notblank : ¬ Blank l := fun h => hb ((blank_iff l).mp h)
      by_cases hs : '=' ∈ removeComment l
      · rw [if_pos hs]
        by_cases hv : validLine (removeComment l) = true
        · rw [if_pos hv]
          have he := parse_entry hs hv
          simp only [extractContents]
          generalize hkk : extractKey (ltrim (removeComment l)) = k at *
          generalize hvv : extractValue (ltrim (removeComment l)) = v at *
          have uniq : ∀ k' v', Entry l k' v' → k' = k ∧ v' = v := by
            intro k' v' h
            have := entry_parse h
            exact ⟨this.2.2.1.symm.trans hkk, this.2.2.2.1.symm.trans hvv⟩
          cases hf : find m k with
          | none =>
            simp only []
            rw [ih _ _ m' ((unique_append m k v).mpr ⟨hu, hf⟩)]
            constructor
            · rintro ⟨es, h1, h2, h3⟩
              exact ⟨(k, v) :: es, .inr ⟨k, v, es, he, rfl, h1⟩, by simpa using h2, by simpa using h3⟩
            · rintro ⟨es, h1 | ⟨k', v', m2, h1, h4, h5⟩, h2, h3⟩
              · exact absurd h1.1 notblank
              · obtain ⟨rfl, rfl⟩ := uniq _ _ h1
                subst h4
                exact ⟨m2, h5, by simpa using h2, by simpa using h3⟩
          | some w =>
            simp only []
            constructor
            · intro h; cases h
            · rintro ⟨es, h1 | ⟨k', v', m2, h1, h4, h5⟩, h2, h3⟩
              · exact absurd h1.1 notblank
              · exfalso
                obtain ⟨rfl, rfl⟩ := uniq _ _ h1
                subst h4
                have h6 : (m ++ (k', v') :: m2) = (m ++ [(k', v')]) ++ m2 := by simp
                rw [h6] at h3
                have h7 : Unique (m ++ [(k', v')]) := by
                  simp only [Unique, List.map_append] at h3 ⊢
                  exact (List.nodup_append.mp h3).1
                have := ((unique_append _ _ _).mp h7).2
                rw [hf] at this; cases this
        · rw [if_neg hv]
          constructor
          · intro h; cases h
          · rintro ⟨es, h1 | ⟨k', v', m2, h1, h4, h5⟩, h2, h3⟩
            · exact absurd h1.1 notblank
            · exact absurd (entry_parse h1).2.1 hv
      · rw [if_neg hs]
        constructor
        · intro h; cases h
        · rintro ⟨es, h1 | ⟨k', v', m2, h1, h4, h5⟩, h2, h3⟩
          · exact absurd h1.1 notblank
          · exact absurd (entry_parse h1).1 hs

/-! lines -/

theorem lines_line {l : Str} (h : '\n' ∉ l) (rest : Str) : lines (l ++ '\n' :: rest) = l :: lines rest := by
  induction l with
  | nil => simp [lines]
  | cons c l ih =>
    simp only [List.mem_cons, not_or] at h
    simp only [List.cons_append, lines, ih h.2]
    rw [if_neg (fun e => h.1 e.symm)]

theorem lines_last {l : Str} (h : '\n' ∉ l) (hn : l ≠ []) : lines l = [l] := by
  induction l with
  | nil => exact absurd rfl hn
  | cons c l ih =>
    simp only [List.mem_cons, not_or] at h
    simp only [lines]
    rw [if_neg (fun e => h.1 e.symm)]
    cases l with
    | nil => rfl
    | cons d l => rw [ih h.2 (by simp)]

end Verif.Cfg
