import Verif.Model.EnvFile
import Verif.Props.Env

/-!
C93: reading of configuration texts.
-/

namespace Verif.Env
open Verif Spec

section
variable {V : Type}

theorem loadEntries_find (m : List (String × V)) (l : List (String × Option V)) (key : String) :
    find (loadEntries m l).1 key = match find m key with
      | some v => some v
      | none => valueOf key (l.takeWhile (fun p => p.2.isSome)) := by
  induction l generalizing m with
  | nil => simp only [loadEntries, List.takeWhile_nil, valueOf]; cases find m key <;> rfl
  | cons p l ih =>
    obtain ⟨k, v⟩ := p
    cases v with
    | none => simp only [loadEntries, List.takeWhile_cons, Option.isSome_none]; cases find m key <;> simp [valueOf]
    | some v =>
      simp only [loadEntries, ih, List.takeWhile_cons, Option.isSome_some, if_true, valueOf, find_insert]
      by_cases h : key = k
      · subst h
        simp only [if_true]
        cases find m key <;> simp
      · have h2 : ¬ k = key := fun x => h x.symm
        simp only [if_neg h, if_neg h2]

theorem loadEntries_flag (m : List (String × V)) (l : List (String × Option V)) : (loadEntries m l).2 = true ↔ ∃ p ∈ l, p.2 = none := by
  induction l generalizing m with
  | nil => simp [loadEntries]
  | cons p l ih =>
    obtain ⟨k, v⟩ := p
    cases v with
    | none => simp [loadEntries]
    | some v => simp [loadEntries, ih]

theorem loadEntries_keys {m : List (String × V)} (h : Keys m) (l : List (String × Option V)) : Keys (loadEntries m l).1 := by
  induction l generalizing m with
  | nil => exact h
  | cons p l ih =>
    obtain ⟨k, v⟩ := p
    cases v with
    | none => exact h
    | some v => exact ih (keys_insert h k v)

theorem takeWhile_typed {l : List (String × Option V)} (h : ∀ p ∈ l, p.2 ≠ none) : l.takeWhile (fun p => p.2.isSome) = l := by
  induction l with
  | nil => rfl
  | cons p l ih =>
    have hp := h p (by simp)
    cases hv : p.2 with
    | none => exact absurd hv hp
    | some v => simp [hv, ih (fun q hq => h q (by simp [hq]))]

theorem valueOf_map (m : List (String × V)) (key : String) : valueOf key (m.map fun p => (p.1, some p.2)) = find m key := by
  induction m with
  | nil => rfl
  | cons p m ih => simp only [List.map_cons, valueOf, find, ih]

end

theorem readSection_other (f : Text) (r : CEnv × Bool) {k k' : Kind} (h : k' ≠ k) : (readSection f r k).1.m k' = r.1.m k' := by
  unfold readSection
  split
  · rfl
  split
  · rfl
  · exact set_m_other _ h _

theorem readSection_flag (f : Text) (r : CEnv × Bool) (k : Kind) : (readSection f r k).2 = false ↔ r.2 = false ∧ TypedSec f k := by
  unfold readSection
  split
  · rename_i h; simp [h]
  · rename_i h
    simp only [Bool.not_eq_true] at h
    split
    · rename_i hf; simp [h, TypedSec, hf]
    · rename_i l hf
      simp only [h, true_and, TypedSec, hf, Option.some.injEq, forall_eq']
      rw [← Bool.not_eq_true, loadEntries_flag]
      exact ⟨fun hh p hp hn => hh ⟨p, hp, hn⟩, fun hh ⟨p, hp, hn⟩ => hh p hp hn⟩

theorem readSection_same (f : Text) (r : CEnv × Bool) (k : Kind) :
    (r.2 = true → (readSection f r k).1.m k = r.1.m k) ∧ (r.2 = false → f k = none → (readSection f r k).1.m k = r.1.m k) ∧
    (r.2 = false → ∀ l, f k = some l → (readSection f r k).1.m k = (loadEntries [] l).1) := by
  refine ⟨fun h => by simp [readSection, h], fun h hf => by simp [readSection, h, hf], fun h l hf => ?_⟩
  simp [readSection, h, hf, set_m]

/-- What one map is after reading. -/
theorem readArchive_m (e : CEnv) (f : Text) (k : Kind) :
    ((¬ ∀ k' ∈ earlier k, TypedSec f k') → (readArchive e f).m k = e.m k) ∧
    ((∀ k' ∈ earlier k, TypedSec f k') → f k = none → (readArchive e f).m k = e.m k) ∧
    ((∀ k' ∈ earlier k, TypedSec f k') → ∀ l, f k = some l → (readArchive e f).m k = (loadEntries [] l).1) := by
  have key : ∀ (r : CEnv × Bool) (h1 : (r.2 = false ↔ ∀ k' ∈ earlier k, TypedSec f k')) (h2 : r.1.m k = e.m k)
      (h3 : (readArchive e f).m k = (readSection f r k).1.m k),
      ((¬ ∀ k' ∈ earlier k, TypedSec f k') → (readArchive e f).m k = e.m k) ∧
      ((∀ k' ∈ earlier k, TypedSec f k') → f k = none → (readArchive e f).m k = e.m k) ∧
      ((∀ k' ∈ earlier k, TypedSec f k') → ∀ l, f k = some l → (readArchive e f).m k = (loadEntries [] l).1) := by
    intro r h1 h2 h3
    obtain ⟨s1, s2, s3⟩ := readSection_same f r k
    rw [h3, ← h2, ← h1]
    exact ⟨fun h => s1 (by simpa using h), s2, s3⟩
  cases k
  · refine key (e, false) (by simp [earlier]) rfl ?_
    simp only [readArchive, archiveOrder, List.foldl_cons, List.foldl_nil]
    rw [readSection_other _ _ (by simp), readSection_other _ _ (by simp), readSection_other _ _ (by simp)]
  · refine key (readSection f (readSection f (readSection f (e, false) .string) .float) .int) (by simp [earlier, readSection_flag, and_assoc]) ?_ rfl
    rw [readSection_other _ _ (by simp), readSection_other _ _ (by simp), readSection_other _ _ (by simp)]
  · refine key (readSection f (readSection f (e, false) .string) .float) (by simp [earlier, readSection_flag]) ?_ ?_
    · rw [readSection_other _ _ (by simp), readSection_other _ _ (by simp)]
    · simp only [readArchive, archiveOrder, List.foldl_cons, List.foldl_nil]
      rw [readSection_other _ _ (by simp)]
  · refine key (readSection f (e, false) .string) (by simp [earlier, readSection_flag]) ?_ ?_
    · rw [readSection_other _ _ (by simp)]
    · simp only [readArchive, archiveOrder, List.foldl_cons, List.foldl_nil]
      rw [readSection_other _ _ (by simp), readSection_other _ _ (by simp)]

theorem wf_readArchive {e : CEnv} (h : WF e) (f : Text) : WF (readArchive e f) := by
  intro k
  obtain ⟨h1, h2, h3⟩ := readArchive_m e f k
  by_cases hk : ∀ k' ∈ earlier k, TypedSec f k'
  · cases hf : f k with
    | none => rw [h2 hk hf]; exact h k
    | some l => rw [h3 hk l hf]; exact loadEntries_keys (by simp [Keys]) l
  · rw [h1 hk]; exact h k

theorem find_readArchive {f : Text} (hf : Typed f) (e : CEnv) (k : Kind) (key : String) :
    find ((readArchive e f).m k) key = if f k = none then find (e.m k) key else inText f k key := by
  obtain ⟨_, h2, h3⟩ := readArchive_m e f k
  cases h : f k with
  | none => rw [h2 (fun k' _ => hf k') h]; simp
  | some l =>
    rw [h3 (fun k' _ => hf k') l h, loadEntries_find, takeWhile_typed (hf k l h)]
    simp [find, inText, h]

theorem find_new {f : Text} (hf : Typed f) (k : Kind) (key : String) : find ((readArchive .empty f).m k) key = inText f k key := by
  rw [find_readArchive hf]
  split
  · rename_i h; simp [CEnv.empty, find, inText, h]
  · rfl

/-! ## reading into a new environment -/

/-- **C93**, constructor: the environment made from a text whose values have the right types has exactly the properties of the text, under the root.
Missing: texts with a value of another type, see the findings. -/
theorem C93_new_environment_partial (f : Text) (hf : Typed f) (root : String) :
    ∃ e, newFromText (some f) root = some e ∧ (∀ k key d, cGet e k key d root = readAs (inText f k key) d) ∧
      ∀ k key rt d, (cGet e k key d rt).2 = true → ∃ key', getFullKey key' root = getFullKey key rt ∧ inText f k key' ≠ none := by
  have hw : WF (readArchive .empty f) := wf_readArchive wf_empty f
  have hres : (cCopy .empty (readArchive .empty f) root).2 = true := by
    rw [← Bool.not_eq_false, C40_result _ _ hw root]
    rintro ⟨k, key, _, h2⟩
    have hc : (cGet CEnv.empty k key (match k with | .string => "" | .bool => false | .int => (0 : Int) | .float => (0 : Nat)) root).2 = true := h2 _
    rw [cGet_eq, read_snd] at hc
    exact hc rfl
  refine ⟨_, rfl, fun k key d => ?_, fun k key rt d h => ?_⟩
  · cases hs : inText f k key with
    | some v =>
      have := C40_success_adds_all .empty _ hw root hres k key v d (by rw [cGet_eq, read_eq_some, getFullKey_root, find_new hf, hs])
      rw [this]; rfl
    | none =>
      cases hr : cGet (cCopy .empty (readArchive .empty f) root).1 k key d root with
      | mk v b =>
        cases b with
        | true =>
          rcases C40_nothing_else .empty _ hw root k key root v d hr with h | ⟨key', h1, h2⟩
          · rw [cGet_eq, read_eq_some] at h; cases h
          · rw [fullKey_inj_key h1] at h2
            rw [cGet_eq, read_eq_some, getFullKey_root, find_new hf, hs] at h2; cases h2
        | false =>
          have h2 : (cGet (cCopy .empty (readArchive .empty f) root).1 k key d root).2 = false := by rw [hr]
          rw [cGet_eq, read_snd_false] at h2
          rw [cGet_eq, h2] at hr
          exact hr.symm
  · cases hr : cGet (cCopy .empty (readArchive .empty f) root).1 k key d rt with
    | mk v b =>
      have hb : b = true := by
        have := congrArg Prod.snd hr
        exact this.symm.trans h
      subst hb
      rcases C40_nothing_else .empty _ hw root k key rt v d hr with h | ⟨key', h1, h2⟩
      · rw [cGet_eq, read_eq_some] at h; cases h
      · rw [cGet_eq, read_eq_some, getFullKey_root, find_new hf] at h2
        exact ⟨key', h1, by rw [h2]; simp⟩

/-- **C93**, constructor: it throws exactly if the text cannot be read. -/
theorem C93_new_throws (file : Option Text) (root : String) : newFromText file root = none ↔ file = none := by
  cases file <;> simp [newFromText]

/-! ## loadFile -/

/-- **C93**, `loadFile`: with a text whose values have the right types, `true` means that every property of the text is there under the root; and in any case
what was there before is unchanged.
Missing: texts with a value of another type, see the findings. -/
theorem C93_load_partial (e : CEnv) (f : Text) (hf : Typed f) (root : String) :
    ((loadText e (some f) root).2 = true → ∀ k key v, inText f k key = some v → ∀ d, cGet (loadText e (some f) root).1 k key d root = (v, true)) ∧
    (∀ k key rt v d, cGet e k key d rt = (v, true) → cGet (loadText e (some f) root).1 k key d rt = (v, true)) ∧
    ((loadText e (some f) root).2 = false ↔ ∃ k key, inText f k key ≠ none ∧ ∀ d, (cGet e k key d root).2 = true) := by
  have hw : WF (readArchive .empty f) := wf_readArchive wf_empty f
  refine ⟨fun hr k key v hs d => ?_, fun k key rt v d h => C40_keeps_existing e _ hw root k key rt v d h, ?_⟩
  · exact C40_success_adds_all e _ hw root hr k key v d (by rw [cGet_eq, read_eq_some, getFullKey_root, find_new hf, hs])
  · have := C40_result e _ hw root
    show (cCopy e (readArchive .empty f) root).2 = false ↔ _
    rw [this]
    constructor
    · rintro ⟨k, key, h1, h2⟩
      refine ⟨k, key, fun hs => ?_, h2⟩
      have hc : (cGet (readArchive .empty f) k key (match k with | .string => "" | .bool => false | .int => (0 : Int) | .float => (0 : Nat)) "").2 = true := h1 _
      rw [cGet_eq, read_snd, getFullKey_root, find_new hf] at hc
      exact hc hs
    · rintro ⟨k, key, h1, h2⟩
      exact ⟨k, key, fun d => by rw [cGet_eq, read_snd, getFullKey_root, find_new hf]; exact h1, h2⟩

/-- **C93**, `loadFile`: a text that cannot be read is reported and changes nothing. -/
theorem C93_load_unreadable (e : CEnv) (root : String) : loadText e none root = (e, false) := rfl

/-! ## updateConfiguration -/

/-- **C93**, `updateConfiguration`: with a text whose values have the right types, the properties of the types that have a section are exactly those of the section,
the properties of the other types stay as they were.
Missing: texts with a value of another type, see the findings. -/
theorem C93_update_partial (e : CEnv) (f : Text) (hf : Typed f) (k : Kind) (key rt : String) (d : k.Val) :
    (updateText e (some f)).2 = true ∧ (f k = none → cGet (updateText e (some f)).1 k key d rt = cGet e k key d rt) ∧
    (f k ≠ none → cGet (updateText e (some f)).1 k key d rt = readAs (inText f k (getFullKey key rt)) d) := by
  refine ⟨rfl, fun h => ?_, fun h => ?_⟩
  · simp only [updateText, cGet_eq, find_readArchive hf, h, if_true]
  · simp only [updateText, cGet_eq, find_readArchive hf, if_neg h]

theorem C93_update_unreadable (e : CEnv) : updateText e none = (e, false) := rfl

theorem typed_export (e : CEnv) : Typed (exportText e) := by
  intro k l hl p hp
  simp only [exportText, Option.some.injEq] at hl
  subst hl
  obtain ⟨q, _, rfl⟩ := List.mem_map.mp hp
  simp

/-- **C93**, round trip: an environment that is updated with the text exported from another one reads like that one from then on, whatever it held before (this
is what `zPoll` of the model of shared environments, C41, rests on). -/
theorem C93_round_trip (e e' : CEnv) (k : Kind) (key rt : String) (d : k.Val) :
    (updateText e' (some (exportText e))).2 = true ∧ cGet (updateText e' (some (exportText e))).1 k key d rt = cGet e k key d rt := by
  obtain ⟨h1, _, h3⟩ := C93_update_partial e' (exportText e) (typed_export e) k key rt d
  refine ⟨h1, (h3 (by simp [exportText])).trans ?_⟩
  rw [cGet_eq]
  simp only [inText, exportText, Option.bind_some, valueOf_map]

/-- **C93**, round trip through a file: a new environment made from an exported text, with the empty root, reads like the exported one. -/
theorem C93_export_new (e : CEnv) : ∃ e', newFromText (some (exportText e)) "" = some e' ∧ ∀ k key d, cGet e' k key d "" = cGet e k key d "" := by
  obtain ⟨e', h1, h2, _⟩ := C93_new_environment_partial (exportText e) (typed_export e) ""
  refine ⟨e', h1, fun k key d => ?_⟩
  rw [h2, cGet_eq, getFullKey_root]
  simp only [inText, exportText, Option.bind_some, valueOf_map]

/-! ## values of another type -/

/-- **C93**, exactly what is read from any text: the sections before the first one with a value of another type (in the order string, float, int, bool), of that one the
entries before that value, and nothing of the later ones. -/
theorem C93_read_exact (e : CEnv) (f : Text) (k : Kind) (key rt : String) (d : k.Val) :
    ((¬ ∀ k' ∈ earlier k, TypedSec f k') → cGet (updateText e (some f)).1 k key d rt = cGet e k key d rt) ∧
    ((∀ k' ∈ earlier k, TypedSec f k') → f k = none → cGet (updateText e (some f)).1 k key d rt = cGet e k key d rt) ∧
    ((∀ k' ∈ earlier k, TypedSec f k') → ∀ l, f k = some l →
      cGet (updateText e (some f)).1 k key d rt = readAs (valueOf (getFullKey key rt) (l.takeWhile fun p => p.2.isSome)) d) := by
  obtain ⟨h1, h2, h3⟩ := readArchive_m e f k
  refine ⟨fun h => ?_, fun h hf => ?_, fun h l hf => ?_⟩
  · simp only [updateText, cGet_eq, h1 h]
  · simp only [updateText, cGet_eq, h2 h hf]
  · simp only [updateText, cGet_eq, h3 h l hf, loadEntries_find]; rfl

/-- A text with a string property, one that should be a string and is not, a further string, an integer and a flag. -/
def oddText : Text := fun
  | .string => some [("a", some "x"), ("b", none), ("c", some "y")]
  | .float => none
  | .int => some [("i", some (5 : Int))]
  | .bool => some [("t", some true)]

/-- Finding against **C93**: a value of another type is not reported: `loadFile` gives `true`, and the properties behind it and those of the sections read
later are not there. -/
theorem C93_violation_load_silent :
    (loadText .empty (some oddText) "").2 = true ∧ inText oddText .int "i" = some (5 : Int) ∧ inText oddText .string "c" = some "y" ∧
    cGet (loadText .empty (some oddText) "").1 .string "a" "" "" = ("x", true) ∧
    cGet (loadText .empty (some oddText) "").1 .string "c" "" "" = ("", false) ∧
    cGet (loadText .empty (some oddText) "").1 .int "i" (0 : Int) "" = ((0 : Int), false) := by decide +kernel

/-- Finding against **C93**: `updateConfiguration` with such a text says `true`, and properties that were there are lost. -/
theorem C93_violation_update_loses :
    let e := cSet .empty .string "z" "old" ""
    (updateText e (some oddText)).2 = true ∧ cGet e .string "z" "" "" = ("old", true) ∧ cGet (updateText e (some oddText)).1 .string "z" "" "" = ("", false) ∧
    cGet (updateText e (some oddText)).1 .string "c" "" "" = ("", false) := by decide +kernel

/-- In general: a value of another type that no section before has makes every later section be ignored, and the result of `updateConfiguration` is `true`. -/
theorem C93_later_sections_ignored (e : CEnv) (f : Text) (k k' : Kind) (hk : k' ∈ earlier k) (l : List (String × Option k'.Val)) (hl : f k' = some l)
    (x : String) (hx : (x, none) ∈ l) (key rt : String) (d : k.Val) :
    (updateText e (some f)).2 = true ∧ cGet (updateText e (some f)).1 k key d rt = cGet e k key d rt :=
  ⟨rfl, (C93_read_exact e f k key rt d).1 fun h => h k' hk l hl _ hx rfl⟩

/-- C93: a text without a section for a type does not remove the properties of that type (an exported text always has all four sections). -/
theorem C93_missing_section_keeps :
    let e := cSet .empty .int "i" (3 : Int) ""
    let f : Text := fun | .string => some [("s", some "v")] | _ => none
    cGet (updateText e (some f)).1 .int "i" (0 : Int) "" = ((3 : Int), true) ∧ cGet (updateText e (some f)).1 .string "s" "" "" = ("v", true) := by decide +kernel

/-- A well typed text with a repeated key: the first entry counts. -/
def goodText : Text := fun
  | .string => some [("a", some "x"), ("a", some "y"), ("b", some "z")]
  | .float => some []
  | .int => some [("i", some (5 : Int))]
  | .bool => none

theorem C93_example : Typed goodText ∧ inText goodText .string "a" = some "x" ∧ inText goodText .int "i" = some (5 : Int) ∧
    (newFromText (some goodText) "r").map (fun e => (cGet e .string "a" "" "r", cGet e .string "b" "" "r", cGet e .string "b" "" "", cGet e .int "i" (0 : Int) "r")) =
      some (("x", true), ("z", true), ("", false), ((5 : Int), true)) ∧
    (loadText (cSet .empty .int "i" (1 : Int) "r") (some goodText) "r").2 = false ∧ (loadText (cSet .empty .int "i" (1 : Int) "q") (some goodText) "r").2 = true := by
  refine ⟨?_, by decide +kernel, by decide +kernel, by decide +kernel, by decide +kernel, by decide +kernel⟩
  intro k l hl p hp
  cases k <;> simp only [goodText, Option.some.injEq, reduceCtorEq] at hl <;> subst hl <;> simp at hp
  · rcases hp with rfl | rfl | rfl <;> simp
  · subst hp; simp

end Verif.Env
